import Verif.Props.StakingPayout

/-! # Concrete cases for C48, C50, C76, C77: the hypotheses are met, and the excesses of C48 and C50 do happen -/

namespace Verif.Staking

theorem smallE_sane : smallE.Sane := ⟨⟨by decide, by decide, by decide, by decide⟩, by decide, by decide⟩

theorem genesis_start {E : EPar} (hE : E.Sane) (d mt mc : Nat) (fr : Nat → Nat) (setup : List Op) (hm : E.par.minPer ≤ mt)
    (hn : Op.newEra ∉ setup) :
    EStart E ((genesis E (run E.par (St.init d mt mc fr) setup)).getD (blank E (run E.par (St.init d mt mc fr) setup))) := by
  obtain ⟨G, hG⟩ := Option.isSome_iff_exists.1 (C75_genesis_never_panics E hE d mt mc fr setup hm hn)
  exact ⟨d, mt, mc, fr, setup, hm, hn, by rw [hG]; rfl⟩

theorem genesis_startPos {E : EPar} (hE : E.Sane) (d mt mc : Nat) (fr : Nat → Nat) (setup : List Op) (hm : E.par.minPer ≤ mt)
    (hn : Op.newEra ∉ setup) (h1 : 1 ≤ mc) (h0 : Op.setMinCollator 0 ∉ setup) :
    EStartPos E ((genesis E (run E.par (St.init d mt mc fr) setup)).getD (blank E (run E.par (St.init d mt mc fr) setup))) := by
  obtain ⟨G, hG⟩ := Option.isSome_iff_exists.1 (C75_genesis_never_panics E hE d mt mc fr setup hm hn)
  exact ⟨d, mt, mc, fr, setup, hm, hn, h1, h0, by rw [hG]; rfl⟩

theorem small_reachPos : EReachPos smallE (eRun smallE small0 smallHistory) :=
  ⟨small0, smallHistory, genesis_startPos smallE_sane 2 1 5 _ smallSetup (by decide) (by simp [smallSetup]) (by decide) (by simp [smallSetup]),
   by simp [smallHistory, plain], rfl⟩

/-- The first era gets 100, by points and stake; of the second era only one collator has had its turn. -/
example : (eRun smallE small0 smallHistory).paid = [⟨1, 1, 1, 10⟩, ⟨1, 1, 4, 50⟩, ⟨1, 2, 2, 40⟩, ⟨2, 2, 2, 600⟩] ∧
    (eRun smallE small0 smallHistory).led.era = 2 + smallE.payDelay ∧ (eRun smallE small0 smallHistory).delayed 2 ≠ none ∧
    (eRun smallE small0 smallHistory).awarded 2 = [(1, 40)] := by
  decide +kernel

/-- One more block of the same era serves the other: C77 applies. -/
example : (eRun smallE (eRun smallE small0 smallHistory) [plain 16 1]).led.era = (eRun smallE small0 smallHistory).led.era ∧
    blockCount [plain 16 1] = 1 ∧ (2, 1) ∈ (eRun smallE (eRun smallE small0 smallHistory) [plain 16 1]).served := by
  decide +kernel

/-- And at era 4 nothing more is paid for era 1. -/
example : 1 + smallE.payDelay < (eRun smallE small0 smallHistory).led.era := by decide +kernel

/-! ### C48: rounding up pays more than was set aside -/

/-- Three collators may be selected, an era has six blocks. -/
def threeE : EPar := ⟨smallPar, 2, 4, 3, 2, 10, false, 0, 90, 91⟩

/-- Three equal candidates. -/
def threeSetup : List Op := [.join 1 10 10 true, .join 2 10 10 true, .join 3 10 10 true]

/-- The pot has two units. -/
def threeFree (a : Nat) : Nat := if a = 90 then 2 else 1000

/-- The ledger at genesis. -/
def threeLed : St := run smallPar (St.init 2 1 5 threeFree) threeSetup

/-- The state at genesis. -/
def three0 : Full := (genesis threeE threeLed).getD (blank threeE threeLed)

/-- Two eras in which all three author equally many blocks; two units are set aside for the first; the pot is filled up later. -/
def threeHistory : List EOp :=
  [plain 1 1, plain 2 2, plain 3 3, plain 4 1, plain 5 2, plain 6 3, plain 7 1, plain 8 2, plain 9 3, plain 10 1, plain 11 2, plain 12 3,
   .ledger (.setFree 90 50), plain 13 1, plain 14 2]

theorem threeE_sane : threeE.Sane := ⟨⟨by decide, by decide, by decide, by decide⟩, by decide, by decide⟩

theorem three_reach : EReachPos threeE (eRun threeE three0 threeHistory) :=
  ⟨three0, threeHistory,
   genesis_startPos threeE_sane 2 1 5 threeFree threeSetup (by decide) (by simp [threeSetup]) (by decide) (by simp [threeSetup]),
   by simp [threeHistory, plain], rfl⟩

/-- C48 does not hold as stated: a reachable state in which three units were paid for an era for which two were set aside. -/
theorem C48_full_claim_false :
    ∃ E F e, EPar.Sane E ∧ EReachPos E F ∧ F.aside e = 2 ∧ paidFor F e = 3 :=
  ⟨threeE, eRun threeE three0 threeHistory, 1, threeE_sane, three_reach, by decide +kernel, by decide +kernel⟩

/-! ### C48: with a minimum collator stake of zero the excess is not bounded by rounding -/

/-- Two collators may be selected. -/
def zeroE : EPar := ⟨smallPar, 2, 3, 2, 2, 10, false, 0, 90, 91⟩

/-- The first candidate has nothing bonded itself. -/
def zeroSetup : List Op := [.join 1 0 10 true, .join 2 1 10 true, .nominate 4 1 50 10 10]

/-- The pot is empty. -/
def zeroFree (a : Nat) : Nat := if a = 90 then 0 else 1000

/-- The ledger at genesis, with a minimum collator stake of zero. -/
def zeroLed : St := run smallPar (St.init 2 1 0 zeroFree) zeroSetup

/-- The state at genesis. -/
def zero0 : Full := (genesis zeroE zeroLed).getD (blank zeroE zeroLed)

/-- The nominator of candidate 1 asks to revoke before era 2; 100 is set aside for era 2; then the pot is filled up. -/
def zeroHistory : List EOp :=
  [plain 1 1, .ledger (.scheduleRevoke 4 1), plain 5 1, plain 6 2, plain 7 1, plain 8 1, plain 9 1, plain 10 1, .ledger (.setFree 90 100),
   plain 15 1, .ledger (.setFree 90 500), plain 16 1]

theorem zeroE_sane : zeroE.Sane := ⟨⟨by decide, by decide, by decide, by decide⟩, by decide, by decide⟩

theorem zero_reach : EReach zeroE (eRun zeroE zero0 zeroHistory) :=
  ⟨zero0, zeroHistory, genesis_start zeroE_sane 2 1 0 zeroFree zeroSetup (by decide) (by simp [zeroSetup]), rfl⟩


/-- C48: the hypothesis on the minimum stake is needed: both the collator and the nominator that is leaving get the whole reward. -/
theorem C48_zero_minimum_pays_twice :
    ∃ E F e, EPar.Sane E ∧ EReach E F ∧ F.aside e = 100 ∧ paidFor F e = 180 ∧ paymentsFor F e = 3 ∧ collatorsFor F e = 2 :=
  ⟨zeroE, eRun zeroE zero0 zeroHistory, 2, zeroE_sane, zero_reach, by decide +kernel, by decide +kernel, by decide +kernel, by decide +kernel⟩

/-! ### C50: a payout that fails on the way keeps its payments and can be repeated -/

/-- Collators 1 and 2 author blocks in the first two eras, which form growth period 1; it is sent to Ethereum; collator 2 moves all
its funds away; the growth is lifted. -/
def failHistory : List EOp :=
  [plain 1 1, plain 2 2, plain 5 1, plain 10 2, .ledger (.setFree 90 100), plain 11 1, plain 15 1, plain 20 1, .ledger (.setFree 2 0),
   .growthLifted 1000 1]

theorem fail_reach : EReach smallE (eRun smallE small0 failHistory) := ⟨small0, failHistory, small0_start, rfl⟩

/-- Period 1 was sent once, with the reward of its eras. -/
example : (eRun smallE small0 failHistory).sent = [⟨1, 100, 110, 101⟩] ∧ (eRun smallE small0 failHistory).gpIndex = 2 := by decide +kernel

/-- C50 does not hold as stated: lifting the growth of a period a second time pays collator 1 its share a second time, because the
first payout failed at collator 2 and was not undone. -/
theorem C50_full_claim_false :
    ∃ E F, EPar.Sane E ∧ EReach E F ∧ F.led.free 1 = 1500 ∧ (eStep E F (.growthLifted 1000 1)).led.free 1 = 2000 ∧ F.payouts = [] :=
  ⟨smallE, eRun smallE small0 failHistory, smallE_sane, fail_reach, by decide +kernel, by decide +kernel, by decide +kernel⟩

/-- A payout that succeeds: it is logged and cannot be repeated. -/
example : (payoutGrowth smallE (eRun smallE small0 (failHistory.take 8)) 1000 1).2 = true ∧
    (payoutGrowth smallE (payoutGrowth smallE (eRun smallE small0 (failHistory.take 8)) 1000 1).1 1000 1).2 = false := by
  decide +kernel

end Verif.Staking
