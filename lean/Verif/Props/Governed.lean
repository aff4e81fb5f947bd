import Verif.Lemmas.Governed4
import Verif.Lemmas.Governed5
import Verif.Props.Membership
import Verif.Props.EthBridgeTx
import Verif.Props.Summary
import Verif.Props.Anchor

/-!
# What stays as it is without the sudo key and without a vote for root: C133–C137

The dispatcher (`Model/Authority`) and one pallet run together: a call of root to the pallet happens only if the dispatcher carries it out. The histories are
arbitrary in everything else: whatever is sent to the dispatcher, and whatever users, validators, hooks and other pallets do to the pallet.
`Quiet` and `WithoutPower` are the hypotheses of C128: nothing is pending under root but lowers their owners asked for, nobody who controls the sudo key makes a
call, and no referendum for root is approved.
-/

namespace Verif.Governed

open Verif.Authority (Env Quiet WithoutPower genesis)

section
variable (E : Env) (k₀ : Option Acct) (before : List Authority.Step)
  (hq : Quiet (Authority.run E (genesis k₀) before))

/-! ### C133: the validators -/

include hq in
/-- C133. Without the sudo key and without a vote for root, an account for which nothing is awaited from Ethereum stays what it is: a validator or not, with the same
Ethereum key, a staking candidate who is not leaving or not one. -/
theorem C133_validators_stay (par : Staking.EPar) (hE : par.Sane) (minV : Nat) (c : Membership.Chain) (hc : Membership.Reach par minV c)
    (h : List (Authority.Step × List Membership.Step)) (hw : WithoutPower E (Authority.run E (genesis k₀) before) (h.map Prod.fst))
    (a : Nat) (ha : ∀ e ∈ c.vm.actions, e.status = .awaiting → e.account ≠ a) (c' : Membership.Chain)
    (hc' : c' = (run E (membership par minV) (Authority.run E (genesis k₀) before, c) h).2) :
    (a ∈ c'.vm.validators ↔ a ∈ c.vm.validators) ∧ c'.vm.rev a = c.vm.rev a ∧
      ((∃ r, c'.stk.led.cands a = some r ∧ ∀ w, r.info.status ≠ .leaving w) ↔ ∃ r, c.stk.led.cands a = some r ∧ ∀ w, r.info.status ≠ .leaving w) := by
  have key := run_keeps E (membership par minV) k₀ before h c hq hw
    (fun t : Membership.Chain => Membership.Reach par minV t ∧ SameFor a c t) ⟨hc, ha, Iff.rfl, rfl⟩ (by
      rintro t x ⟨ht, hs⟩ hx
      have q := step_same hE (ht.inv hE) x hx a hs.settled
      exact ⟨ht.step x, q.settled, q.val.trans hs.val, q.rev.trans hs.rev⟩)
  rw [← hc'] at key
  obtain ⟨hr, hs⟩ := key
  refine ⟨hs.val, hs.rev, ?_⟩
  rw [← Membership.C109_validators_are_the_staying_candidates par hE minV c' hr a,
    ← Membership.C109_validators_are_the_staying_candidates par hE minV c hc a]
  exact hs.val

/-- C133, from the start of the chain: until the sudo key or a vote for root acts, the validators are those of genesis, with their Ethereum keys. -/
theorem C133_validators_of_genesis (par : Staking.EPar) (hE : par.Sane) (minV : Nat) (vs : List (Nat × Nat)) (F : Staking.Full) (sk : List (Nat × Nat))
    (hs : Membership.Start par minV vs F sk) (h : List (Authority.Step × List Membership.Step)) (hw : WithoutPower E (genesis k₀) (h.map Prod.fst))
    (a : Nat) :
    (a ∈ (run E (membership par minV) (genesis k₀, Membership.genesis vs F sk) h).2.vm.validators ↔ a ∈ (Membership.genesis vs F sk).vm.validators) ∧
      (run E (membership par minV) (genesis k₀, Membership.genesis vs F sk) h).2.vm.rev a = (Membership.genesis vs F sk).vm.rev a := by
  have hq : Quiet (Authority.run E (genesis k₀) []) := ⟨rfl, (by intro o c h; cases h)⟩
  obtain ⟨h1, h2, -⟩ := C133_validators_stay E k₀ [] hq par hE minV _ ⟨vs, F, sk, [], hs, rfl⟩ h hw a (by intro e he; cases he) _ rfl
  exact ⟨h1, h2⟩

/-! ### C134: the settings -/

include hq

/-- C134, the token manager: lowering stays enabled or disabled, the native token's contract and the delay of lowers stay. -/
theorem C134_token_settings_stay (s : TokenManager.State) (h : List (Authority.Step × List (TokenManager.Env × TokenManager.Step)))
    (hw : WithoutPower E (Authority.run E (genesis k₀) before) (h.map Prod.fst)) (s' : TokenManager.State)
    (hs' : s' = (run E tokens (Authority.run E (genesis k₀) before, s) h).2) :
    s'.lowersDisabled = s.lowersDisabled ∧ s'.avtContract = s.avtContract ∧ s'.lowerPeriod = s.lowerPeriod := by
  rw [hs']
  refine run_keeps E tokens k₀ before h s hq hw
    (fun t : TokenManager.State => t.lowersDisabled = s.lowersDisabled ∧ t.avtContract = s.avtContract ∧ t.lowerPeriod = s.lowerPeriod) ⟨rfl, rfl, rfl⟩ ?_
  rintro t x ⟨h1, h2, h3⟩ hx
  obtain ⟨q1, q2, q3⟩ := tokens_keep t x hx
  exact ⟨q1.trans h1, q2.trans h2, q3.trans h3⟩

/-- C134, the bridge: the instance it works for stays. -/
theorem C134_bridge_instance_stays {V : Type} (handler : V → EthBridge.EthEvent → V × Bool) (s : EthBridge.State V)
    (h : List (Authority.Step × List (EthBridge.Step V))) (hw : WithoutPower E (Authority.run E (genesis k₀) before) (h.map Prod.fst))
    (s' : EthBridge.State V) (hs' : s' = (run E (bridgeEvents V handler) (Authority.run E (genesis k₀) before, s) h).2) :
    s'.instanceValid = s.instanceValid ∧ s'.network = s.network := by
  rw [hs']
  refine run_keeps E (bridgeEvents V handler) k₀ before h s hq hw
    (fun t : EthBridge.State V => t.instanceValid = s.instanceValid ∧ t.network = s.network) ⟨rfl, rfl⟩ ?_
  rintro t x ⟨h1, h2⟩ hx
  obtain ⟨q1, q2⟩ := bridgeEvents_keep handler t x hx
  exact ⟨q1.trans h1, q2.trans h2⟩

/-- C134, summaries: the schedule, the voting period and the threshold of the external vote stay, and nobody decides on challenged roots. -/
theorem C134_summary_settings_stay (refOf : Summary.RootId → Nat → Nat) (s : Summary.State) (h : List (Authority.Step × List Summary.Step))
    (hw : WithoutPower E (Authority.run E (genesis k₀) before) (h.map Prod.fst)) (s' : Summary.State)
    (hs' : s' = (run E (summary refOf) (Authority.run E (genesis k₀) before, s) h).2) :
    s'.schedulePeriod = s.schedulePeriod ∧ s'.votingPeriod = s.votingPeriod ∧ s'.threshold = s.threshold ∧
      ∀ rid b, Summary.Event.resolved rid b ∈ s'.log → Summary.Event.resolved rid b ∈ s.log := by
  have key := run_keeps E (summary refOf) k₀ before h s hq hw
    (fun t : Summary.State => cfg t = cfg s ∧ ∀ rid b, Summary.Event.resolved rid b ∈ t.log → Summary.Event.resolved rid b ∈ s.log)
    ⟨rfl, fun _ _ h => h⟩ (by
      rintro t x ⟨h1, h2⟩ hx
      exact ⟨(summary_keep refOf t x hx).trans h1, fun rid b hm => h2 rid b (summary_no_verdict refOf t x hx rid b hm)⟩)
  rw [← hs'] at key
  obtain ⟨h1, h2⟩ := key
  simp only [cfg, Prod.mk.injEq] at h1
  exact ⟨h1.1, h1.2.1, h1.2.2, h2⟩

/-- C134, manually submitted events: the challenge period stays. -/
theorem C134_challenge_period_stays {V : Type} (handler : EthEvents.EthEvent → V → V × Bool) (s : EthEvents.State V)
    (h : List (Authority.Step × List (EthEvents.Step V))) (hw : WithoutPower E (Authority.run E (genesis k₀) before) (h.map Prod.fst)) :
    (run E (events V handler) (Authority.run E (genesis k₀) before, s) h).2.period = s.period :=
  run_keeps E (events V handler) k₀ before h s hq hw (fun t : EthEvents.State V => t.period = s.period) rfl
    (fun t x h1 hx => (events_keep handler t x hx).trans h1)

/-- C134, anchoring: the fees of checkpoints stay. -/
theorem C134_checkpoint_fees_stay (s : Anchor.State) (h : List (Authority.Step × List Anchor.Step))
    (hw : WithoutPower E (Authority.run E (genesis k₀) before) (h.map Prod.fst)) :
    (run E anchor (Authority.run E (genesis k₀) before, s) h).2.fee = s.fee :=
  run_keeps E anchor k₀ before h s hq hw (fun t : Anchor.State => t.fee = s.fee) rfl (fun t x h1 hx => (anchor_keep t x hx).trans h1)

/-- C134, fees: the known senders and their terms stay. -/
theorem C134_known_senders_stay (pot : Acct) (s : Fees.State) (h : List (Authority.Step × List Fees.Step))
    (hw : WithoutPower E (Authority.run E (genesis k₀) before) (h.map Prod.fst)) :
    (run E (fees pot) (Authority.run E (genesis k₀) before, s) h).2.known = s.known :=
  run_keeps E (fees pot) k₀ before h s hq hw (fun t : Fees.State => t.known = s.known) rfl (fun t x h1 hx => (fees_keep pot t x hx).trans h1)

/-- C134, offences: slashing stays on or off. -/
theorem C134_slashing_stays (s : Offence.State) (h : List (Authority.Step × List Offence.Step))
    (hw : WithoutPower E (Authority.run E (genesis k₀) before) (h.map Prod.fst)) :
    (run E offences (Authority.run E (genesis k₀) before, s) h).2.slashing = s.slashing :=
  run_keeps E offences k₀ before h s hq hw (fun t : Offence.State => t.slashing = s.slashing) rfl (fun t x h1 hx => (offences_keep t x hx).trans h1)

/-! ### C135: the bridge's transactions -/

/-- C135. Without the sudo key and without a vote for root, the ids of the bridge's transactions strictly increase, every requester gets at most one answer
per id, and every answer belongs to a request that was accepted with that id and that requester. -/
theorem C135_bridge_ids_and_answers {V : Type} (env : BridgeTx.Env V) (w : V) (avn : Avn.State) (n : Nat)
    (h : List (Authority.Step × List (BridgeTx.Step V))) (hw : WithoutPower E (Authority.run E (genesis k₀) before) (h.map Prod.fst))
    (hwrap : n + (h.map fun y => y.2.length).sum < 2 ^ 32) (s' : BridgeTx.State V)
    (hs' : s' = (run E (bridgeTx V env) (Authority.run E (genesis k₀) before, BridgeTx.initial w avn n) h).2) :
    (BridgeTx.sendIds s'.log).Pairwise (· < ·) ∧
    ((BridgeTx.notifiedTags s'.log).filter (fun t => t.1)).Nodup ∧
    (∀ id c ok, BridgeTx.Obs.result id c ok ∈ s'.log → ∃ r, BridgeTx.Obs.accepted (.send r) ∈ s'.log ∧ r.txId = id ∧ r.callerId = c) := by
  obtain ⟨xs, e, hx, hl⟩ := run_snd E (bridgeTx V env) k₀ h before (BridgeTx.initial w avn n) hq hw
  have hreset : ∀ op ∈ xs, ∀ id, op ≠ BridgeTx.Step.setTxId id := by
    rintro op ho id rfl
    exact absurd (by decide) (hx _ ho .bridgeSetAdminSetting rfl)
  have hlen : n + xs.length < 2 ^ 32 := Nat.lt_of_le_of_lt (Nat.add_le_add_left hl n) hwrap
  have es : s' = BridgeTx.run env (BridgeTx.initial w avn n) xs := hs'.trans e
  have h1 := BridgeTx.C18_ids_strictly_increase env w avn n xs hreset hlen
  have h2 := BridgeTx.C20_each_send_request_answered_at_most_once env w avn n xs hreset hlen
  dsimp only at h1 h2
  rw [es]
  exact ⟨h1.1, h2.1, h2.2.1⟩

/-- C135: the Ethereum contract transactions and proofs are made for stays. -/
theorem C135_bridge_contract_stays {V : Type} (env : BridgeTx.Env V) (s : BridgeTx.State V)
    (h : List (Authority.Step × List (BridgeTx.Step V))) (hw : WithoutPower E (Authority.run E (genesis k₀) before) (h.map Prod.fst)) :
    (run E (bridgeTx V env) (Authority.run E (genesis k₀) before, s) h).2.instanceId = s.instanceId :=
  run_keeps E (bridgeTx V env) k₀ before h s hq hw (fun t : BridgeTx.State V => t.instanceId = s.instanceId) rfl (fun t x h1 hx =>
    (BridgeTx.step_instance env t x (by
      rintro v i rfl
      exact absurd (by decide) (hx .bridgeSetAdminSetting rfl))).trans h1)

/-- The validators decide the request `r` at state `s`: a validator's report on the active transaction, made by neither its sender nor somebody who has
reported, completes the quorum of that outcome among the other validators; or a validator's signature completes the quorum for a lower's proof. -/
def DecidedBy {V : Type} (s : BridgeTx.State V) (op : BridgeTx.Step V) (r : BridgeTx.Request) : Prop :=
  ∃ req, s.active = some req ∧ req.request = r ∧
    ((∃ id ok hv a rep q d, op = .corroborate id ok hv a rep ∧ r = .send q ∧ q.txId = id ∧ req.txData = some d ∧
        Avn.isValidator s.avn.validators a = true ∧ a ≠ d.sender ∧ a ∉ d.success ∧ a ∉ d.failure ∧
        Avn.requiredFor (s.avn.validators.length - 1) ≤ (if ok then d.success else d.failure).length + 1) ∨
     (∃ id sig a q, op = .confirm id sig a ∧ r = .lower q ∧ q.lowerId = id ∧ Avn.isValidator s.avn.validators a = true ∧
        Avn.requiredForSupermajority s.avn.validators.length ≤ req.confirmations.length + 1))

/-- C135: without root, the request that is being worked on is never dropped: it stays until the validators decide it. (Of histories in which the number of
validators is between 1 and 2^32 whenever something happens.) -/
theorem C135_active_request_stays_until_decided {V : Type} (env : BridgeTx.Env V) (s : BridgeTx.State V) (req : BridgeTx.Active) (ha : s.active = some req)
    (h : List (Authority.Step × List (BridgeTx.Step V))) (hw : WithoutPower E (Authority.run E (genesis k₀) before) (h.map Prod.fst)) :
    ∃ xs : List (BridgeTx.Step V), (run E (bridgeTx V env) (Authority.run E (genesis k₀) before, s) h).2 = BridgeTx.run env s xs ∧
      ((∀ ys zs, xs = ys ++ zs → 0 < (BridgeTx.run env s ys).avn.validators.length ∧ (BridgeTx.run env s ys).avn.validators.length < 2 ^ 32) →
        (∃ req', (BridgeTx.run env s xs).active = some req' ∧ req'.request = req.request) ∨
        ∃ ys x zs, xs = ys ++ x :: zs ∧ DecidedBy (BridgeTx.run env s ys) x req.request) := by
  obtain ⟨xs, e, hx, -⟩ := run_snd E (bridgeTx V env) k₀ h before s hq hw
  refine ⟨xs, e, fun hn => ?_⟩
  have hno : ∀ x ∈ xs, x ≠ BridgeTx.Step.removeActive := by
    rintro x hm rfl
    exact absurd (by decide) (hx _ hm .bridgeSetAdminSetting rfl)
  rcases BridgeTx.run_active env xs s req ha hno with hl | ⟨ys, x, zs, e1, req', h1, h2, h3⟩
  · exact Or.inl hl
  · obtain ⟨n1, n2⟩ := hn ys (x :: zs) e1
    refine Or.inr ⟨ys, x, zs, e1, req', h1, h2, ?_⟩
    rcases h3 with ⟨id, ok, hv, a, rep, q, d, g1, g2, g3, g4, g5, g6, g7, g8, g9⟩ | h3
    · refine Or.inl ⟨id, ok, hv, a, rep, q, d, g1, g2, g3, g4, g5, g6, g7, g8, ?_⟩
      unfold BridgeTx.enoughCorroborations BridgeTx.nAuthors at g9
      have : ((BridgeTx.run env s ys).avn.validators.length + pow32 - 1) % pow32 =
          (BridgeTx.run env s ys).avn.validators.length - 1 := by
        unfold pow32
        omega
      rw [this] at g9
      exact of_decide_eq_true g9
    · exact Or.inr h3

/-! ### C136: the settings of staking -/

/-- C136. Without the sudo key and without a vote for root, the number of collators that are chosen, the length of an era, the delay of exits, and the minimum
stakes of collators and of nominators stay. -/
theorem C136_staking_settings_stay (par : Staking.EPar) (hE : par.Sane) (minV : Nat) (c : Membership.Chain) (hc : Membership.Reach par minV c)
    (h : List (Authority.Step × List Membership.Step)) (hw : WithoutPower E (Authority.run E (genesis k₀) before) (h.map Prod.fst)) (c' : Membership.Chain)
    (hc' : c' = (run E (membership par minV) (Authority.run E (genesis k₀) before, c) h).2) :
    c'.stk.totalSelected = c.stk.totalSelected ∧ c'.stk.length = c.stk.length ∧ c'.stk.led.delay = c.stk.led.delay ∧
      c'.stk.led.minCollator = c.stk.led.minCollator ∧ c'.stk.led.minTotal = c.stk.led.minTotal := by
  have key := run_keeps E (membership par minV) k₀ before h c hq hw
    (fun t : Membership.Chain => Membership.Reach par minV t ∧ stakeSettings t.stk = stakeSettings c.stk) ⟨hc, rfl⟩ (by
      rintro t x ⟨ht, hs⟩ hx
      exact ⟨ht.step x, (membership_settings hE (ht.inv hE) x hx).trans hs⟩)
  rw [← hc'] at key
  have h2 := key.2
  simp only [stakeSettings, ledSettings, Prod.mk.injEq] at h2
  exact h2

/-! ### C137: accounts that authorise nothing -/

/-- C137. Without the sudo key and without a vote for root, an account that authorises nothing, such as the treasury, loses nothing: its balances of the native
token and of all other tokens never fall, and no lower of its tokens comes to wait. -/
theorem C137_balances_without_key_never_fall (t : Acct) (s : TokenManager.State) (hs : ∀ i c, s.scheduled i = some c → c.sender ≠ t)
    (h : List (Authority.Step × List (TokenManager.Env × TokenManager.Step)))
    (hw : WithoutPower E (Authority.run E (genesis k₀) before) (h.map Prod.fst))
    (ha : ¬ Authority.Asked (Authority.run E (genesis k₀) (before ++ h.map Prod.fst)) t)
    (hu : Along E tokens (Untouched t) (Authority.run E (genesis k₀) before, s) h) (s' : TokenManager.State)
    (hs' : s' = (run E tokens (Authority.run E (genesis k₀) before, s) h).2) :
    s.avt t ≤ s'.avt t ∧ (∀ k, s.bal k t ≤ s'.bal k t) ∧ ∀ i c, s'.scheduled i = some c → c.sender ≠ t := by
  have key := run_keeps_along E tokens k₀ (Untouched t) (Keeps t s) t (by
    intro u x hu hq hx
    have k := tokens_untouched t u x hu.none hq hx
    exact ⟨fun a => Nat.le_trans (hu.bal a) (k.bal a), Nat.le_trans hu.avt k.avt, k.none⟩)
    h before s hq hw ha hu ⟨fun _ => Nat.le_refl _, Nat.le_refl _, hs⟩
  rw [← hs'] at key
  exact ⟨key.avt, key.bal, key.none⟩

end

/-! ### Concrete cases -/

open Verif.Authority (exE exA exHistory exWithoutPower)

/-- Account 5 tries what it can (`Authority.exHistory`), while a request to add a collator, a removal and other things are tried at each step. -/
def exJoint : List (Authority.Step × List Membership.Step) :=
  exHistory.map fun y => (y, [.addCollator 4 104 none true true, .setKeys 4 14, .removeValidator 2 true true, Membership.blk 5 []])

/-- The hypotheses of C133 are met: the history has no power, and the chain starts at genesis. -/
example : WithoutPower exE (genesis (some (exA 1))) (exJoint.map Prod.fst) ∧
    Membership.Start Staking.smallE 2 Validators.gen3 Staking.small0 [(1, 11), (2, 12), (3, 13)] := by
  refine ⟨?_, Membership.chain0_start⟩
  have : exJoint.map Prod.fst = exHistory := by
    rw [exJoint, List.map_map]
    exact List.map_id exHistory
  rw [this]
  exact exWithoutPower

/-- What was not a call of root happened, the rest did not. -/
example : (run exE (membership Staking.smallE 2) (genesis (some (exA 1)), Membership.chain0) exJoint).2.keys 4 = some 14 ∧
    (run exE (membership Staking.smallE 2) (genesis (some (exA 1)), Membership.chain0) exJoint).2.vm.actions = [] := by decide +kernel

/-- With the sudo key the removal is requested, and Ethereum's confirmation then carries it out although the key does nothing more. -/
example : (run exE (membership Staking.smallE 2) (genesis (some (exA 1)), Membership.chain0)
    [(.tx (exA 1) (.sudo (.leaf .removeValidator true)), [.removeValidator 2 true true]),
     (.tx (exA 5) (.leaf .balancesTransfer true), [.removeValidator 3 true true, .bridgeResult 0 true true])]).2.vm.validators = [1, 3] := by decide +kernel

/-- The bridge's own history, with attempts to set the next id back. -/
def exBridge : List (Authority.Step × List (BridgeTx.Step Nat)) := exHistory.map fun y => (y, BridgeTx.exSteps ++ [.setTxId 0])

example : BridgeTx.sendIds (run exE (bridgeTx Nat BridgeTx.exEnv) (genesis (some (exA 1)), BridgeTx.ex0) exBridge).2.log = [5, 6, 7] ∧
    5 + (exBridge.map fun y => y.2.length).sum < 2 ^ 32 := by decide +kernel

/-- A setting is changed with the key and not without it. -/
example : (run exE (summary Summary.exRef) (genesis (some (exA 1)), Summary.exG)
      [(.tx (exA 5) (.sudo (.leaf .setPeriods true)), [.setPeriods 100 99])]).2.schedulePeriod = 30 ∧
    (run exE (summary Summary.exRef) (genesis (some (exA 1)), Summary.exG)
      [(.tx (exA 1) (.sudo (.leaf .setPeriods true)), [.setPeriods 100 99])]).2.schedulePeriod = 100 := by decide +kernel

/-! Staking settings and the treasury. -/

example : ∀ l, (membership Staking.smallE 2).rootCall (.staking (.setTotalSelected 3)) = some l → l ∈ Authority.privileged := by
  intro l h; cases h; decide

/-- Nobody has a key for account 9. -/
def exTokenEnv : TokenManager.Env :=
  { Anchor.exEnv with crypto := { verifySr := fun who raw _ => decide (who ≠ exA 9) && raw == Vector.replicate 64 7, recoverEcdsa := fun _ _ => none } }

/-- In each step: account 5 pays account 9 a fee, the treasury (account 9) is asked to pay account 5, and lowers of both are to be carried out. -/
def exTreasury : List (Authority.Step × List (TokenManager.Env × TokenManager.Step)) :=
  exHistory.map fun y => (y, [(exTokenEnv, .payFee (Vector.replicate 20 9) 1 (exA 5) (exA 9)), (exTokenEnv, .rootTreasury (exA 5) 10),
    (exTokenEnv, .rootExecuteLower ⟨exA 9, Vector.replicate 20 9, 4, Vector.replicate 20 1⟩ 0),
    (exTokenEnv, .rootExecuteLower ⟨exA 5, Vector.replicate 20 9, 4, Vector.replicate 20 1⟩ 1)])

/-- The hypotheses of C137 are met. -/
example : WithoutPower exE (Authority.run exE (genesis (some (exA 1))) []) (exTreasury.map Prod.fst) ∧
    (∀ i c, Anchor.exTm.scheduled i = some c → c.sender ≠ exA 9) ∧
    ¬ Authority.Asked (Authority.run exE (genesis (some (exA 1))) ([] ++ exTreasury.map Prod.fst)) (exA 9) ∧
    Along exE tokens (Untouched (exA 9)) (Authority.run exE (genesis (some (exA 1))) [], Anchor.exTm) exTreasury := by
  have e : exTreasury.map Prod.fst = exHistory := by
    rw [exTreasury, List.map_map]
    exact List.map_id exHistory
  refine ⟨by rw [e]; exact exWithoutPower, (by intro i c h; cases h), ?_, ?_⟩
  · rw [e]
    unfold Authority.Asked
    decide +kernel
  · refine along_of_forall _ _ ?_
    intro y hy x hx t
    obtain ⟨z, -, rfl⟩ := List.mem_map.mp hy
    have key : ∀ st : TokenManager.Step, (match st with
        | .payFee _ _ p _ => p ≠ exA 9
        | .rootTreasury .. => True
        | .rootExecuteLower .. => True
        | _ => False) → Untouched (exA 9) t (exTokenEnv, st) := by
      intro st h
      refine ⟨?_, fun n m avt => Nat.le_refl _, ?_⟩
      · intro p b hp
        unfold verifySignature
        split
        · simp [verifySrSignature, exTokenEnv, hp]
        · rfl
        · rfl
      · cases st <;> first | exact h | trivial
    rcases List.mem_cons.mp hx with rfl | hx
    · exact key _ (by decide)
    rcases List.mem_cons.mp hx with rfl | hx
    · exact key _ trivial
    rcases List.mem_cons.mp hx with rfl | hx
    · exact key _ trivial
    rcases List.mem_cons.mp hx with rfl | hx
    · exact key _ trivial
    cases hx

/-- What happened: the fees arrived, the treasury paid nothing, and of the lowers only the one account 5 had asked for was carried out. -/
example : (run exE tokens (Authority.run exE (genesis (some (exA 1))) [], Anchor.exTm) exTreasury).2.avt (exA 9) = 58 ∧
    (run exE tokens (Authority.run exE (genesis (some (exA 1))) [], Anchor.exTm) exTreasury).2.avt (exA 5) = 38 := by decide +kernel

end Verif.Governed
