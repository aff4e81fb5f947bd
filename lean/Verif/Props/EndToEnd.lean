import Verif.Lemmas.EndToEnd
import Verif.Props.EventParsing
import Mathlib.Data.List.Perm.Subperm

/-!
# Property C99: deposits, from the log on Ethereum to the balance on the parachain

The whole way: a log of the bridge contract, the discovery tasks of the authors' nodes, their votes, the bridge pallet, the token
manager (and, beside it, the older path of `pallets/ethereum-events` and everything else that happens to the token manager).
`decode` and `code` are the SCALE codec of the event data in a vote; all that is asked of it is that the runtime reads what the node
wrote (`hcode`).
-/

namespace Verif.EndToEnd

open Verif (Addr Hash Acct)
open Verif.EthBridge (EthEvent Obs Active)
open Verif.EventsClient
open Verif.Discovery (Node GenuineEvent)
open Verif.Events (ValidEvent signature)
open Verif.Parsing (EventData SolEvent)
open Verif.Deposits (Entry hashes tmSteps)

/-! ### Specification -/

/-- `l` is the log the bridge contract emits for `e` in transaction `tx` of block `b`. -/
structure Emitted (contract : Addr) (l : Log) (e : SolEvent) (tx : Hash) (b : Nat) : Prop where
  address : l.address = contract
  topics : l.topics.map Vector.toList = e.topics (Verif.beBytes 32 (signature e.kind))
  data : l.data = e.logData
  tx : l.txHash = some tx
  block : l.block = some b

/-- The honest accounts' calls all come from their nodes, in the runtime's history as the bridge pallet sees it. -/
def Honest (decode : Nat → TokenManager.EventData) (code : EventData → Nat) (contract : Addr) (F : List Log) (R : Hash → Option Nat)
    (honest : Nat → Prop) (g : Deposits.Genesis) (steps : List Deposits.Step) : Prop :=
  Discovery.HonestHistory (Deposits.bridgeHandler decode) code contract F R honest (g.after decode []).bridge
      (bridgeHistory decode (g.after decode []) steps) ∧
    Discovery.FewDishonest (Deposits.bridgeHandler decode) honest (g.after decode []).bridge
      (bridgeHistory decode (g.after decode []) steps)

/-- `s'` is `s` with `amount` of `token` added to the account, and nothing else changed. -/
def Credited (s s' : TokenManager.State) (token : Addr) (who : Acct) (amount : Nat) : Prop :=
  if token = s.avtContract then s' = { s with avt := fun x => if x = who then s.avt x + amount else s.avt x }
  else s' = { s with bal := fun t x => if t = token ∧ x = who then s.bal t x + amount else s.bal t x }

/-- What an account holds of a token. -/
def holding (s : TokenManager.State) (token : Addr) (who : Acct) : Nat :=
  if token = s.avtContract then s.avt who else s.bal token who

/-- The amount of token `t` a log of the bridge contract stands for: that of a lift or of a reverted lower of `t`. -/
def deposited (contract : Addr) (t : Addr) (l : Log) : Nat :=
  if l.address = contract then
    match parseLog l with
    | .ok f => match f.data with
      | .lifted d => if d.tokenContract = t then d.amount.val else 0
      | .lowerReverted d => if d.tokenContract = t then d.amount.val else 0
      | _ => 0
    | .error _ => 0
  else 0

/-- What the older path created of token `t`. -/
def legacyCredit (decode : Nat → TokenManager.EventData) (t : Addr) : Entry → Nat
  | .eth .bridge _ _ _ _ => 0
  | x => Deposits.credit decode t x

variable (decode : Nat → TokenManager.EventData) {code : EventData → Nat} (contract : Addr) {F : List Log} {R : Hash → Option Nat}
variable {honest : Nat → Prop}

theorem after_bridge (g : Deposits.Genesis) (steps : List Deposits.Step) :
    (g.after decode steps).bridge = EthBridge.run (Deposits.bridgeHandler decode) (g.after decode []).bridge
      (bridgeHistory decode (g.after decode []) steps) := by
  rw [bridgeHistory_run]; rfl

theorem emitted_genuine {l : Log} {e : SolEvent} {tx : Hash} {b : Nat} (h : Emitted contract l e tx b) (hm : l ∈ F)
    (hk : e.kind ∈ Events.corePrimaryFilter) (hamt : ∀ a, e.amount? = some a → a < 2 ^ 128) (href : e.ref? = none)
    (hkind : e.kind ≠ .erc20DirectTransfer) :
    ∃ f, GenuineEvent contract F l f e.kind ∧ f.tx = tx ∧ f.block = b ∧ f.data = e.value := by
  have htop : ∃ t ts, l.topics = t :: ts ∧ hashNat t = signature e.kind := by
    cases ht : l.topics with
    | nil => have := h.topics; rw [ht] at this; simp [SolEvent.topics] at this
    | cons t ts =>
      refine ⟨t, ts, rfl, ?_⟩
      have := h.topics
      rw [ht] at this
      simp only [List.map_cons, SolEvent.topics, List.cons.injEq] at this
      unfold hashNat
      rw [this.1]
      cases e.kind <;> decide +kernel
  obtain ⟨t, ts, ht, hs⟩ := htop
  have hp : parseLog l = .ok { sig := t, tx := tx, block := b, data := e.value } := by
    unfold parseLog
    rw [ht]
    dsimp only
    rw [h.tx]
    dsimp only
    rw [hs, Discovery.tryFrom_signature]
    dsimp only
    have := Parsing.C27_parse_exact (Verif.beBytes 32 (signature e.kind)) e hamt (by rw [href]; intro r hr; cases hr)
    rw [← ht, h.topics, h.data]
    have hd : (if e.logData = [] then none else some e.logData) = e.data := rfl
    rw [hd, this]
    dsimp only
    rw [h.block]
    cases e <;> first | rfl | exact absurd rfl hkind
  exact ⟨_, ⟨hm, h.address, ⟨t, ts, ht, hs⟩, hk, hp⟩, rfl, rfl, rfl⟩

/-- **C99, nothing else.** Every event the bridge pallet delivers is what a log of the bridge contract on the final Ethereum chain
says: the token manager is given exactly the data of that log. -/
theorem C99_delivered_events_are_on_ethereum (hcode : ∀ d, decode (code d) = readEvent d) (g : Deposits.Genesis)
    (steps : List Deposits.Step) (hh : Honest decode code contract F R honest g steps) (e : EthEvent) (env : TokenManager.Env)
    (native : Addr) (ok : Bool) (h : Entry.eth .bridge e env native ok ∈ (g.after decode steps).trace) :
    ∃ l f k, GenuineEvent contract F l f k ∧ e.txHash = hashNat f.tx ∧ decode e.payload = readEvent f.data := by
  have hl := (g.inv decode steps).bridgeLog e env native ok h
  rw [after_bridge] at hl
  obtain ⟨l, f, k, h1, h2⟩ := Discovery.C96_handled_events_are_genuine (Deposits.bridgeHandler decode) code contract F R honest
    _ g.authors g.rangeSize _ hh.1 hh.2 e hl
  exact ⟨l, f, k, h1, by rw [h2]; rfl, by rw [h2]; exact hcode _⟩

theorem lift_effect (env : TokenManager.Env) (s : TokenManager.State) (token : Addr) (who : Acct) (amount : Nat) :
    let r := TokenManager.step env s (.event (.lifted token who amount))
    (r.2.isNone = true → Credited s r.1 token who amount) ∧ (r.2.isNone = false → r.1 = s) ∧
      (env.eventKnown = true → amount ≠ 0 → holding s token who + amount < 2 ^ 128 → r.2.isNone = true) := by
  dsimp only
  show ((TokenManager.processLift env s token who amount).2.isNone = true → Credited s (TokenManager.processLift env s token who amount).1 token who amount) ∧
    ((TokenManager.processLift env s token who amount).2.isNone = false → (TokenManager.processLift env s token who amount).1 = s) ∧
    (env.eventKnown = true → amount ≠ 0 → holding s token who + amount < 2 ^ 128 → (TokenManager.processLift env s token who amount).2.isNone = true)
  unfold TokenManager.processLift
  by_cases h1 : env.eventKnown = true
  · by_cases h2 : amount = 0
    · simp [h1, h2]
    · by_cases h3 : token = s.avtContract
      · simp only [h1, h2, h3, Bool.not_true, Bool.false_eq_true, if_false, if_true, TokenManager.creditAvt, Credited, holding, false_or]
        by_cases h4 : s.avt who + amount ≥ pow128
        · simp only [h4, if_true]
          refine ⟨by simp, by simp, fun _ _ h => ?_⟩
          unfold pow128 at h4; omega
        · simp only [h4, if_false]
          refine ⟨fun _ => ?_, by simp, by simp⟩
          congr 1
          funext x
          by_cases hx : x = who
          · subst hx; simp
          · rw [upd_ne _ _ hx, if_neg hx]
      · simp only [h1, h2, h3, Bool.not_true, Bool.false_eq_true, if_false, TokenManager.creditToken, Credited, holding]
        by_cases h4 : s.bal token who + amount < pow128
        · have hc : checkedAdd128 (s.bal token who) amount = some (s.bal token who + amount) := by
            unfold checkedAdd128; simp [h4]
          rw [hc]
          refine ⟨fun _ => ?_, by simp, by simp⟩
          dsimp only
          congr 1
          funext t x
          by_cases ht : t = token
          · subst ht
            by_cases hx : x = who
            · subst hx; simp
            · rw [upd_same, upd_ne _ _ hx, if_neg (fun h => hx h.2)]
          · rw [upd_ne _ _ ht, if_neg (fun h => ht h.1)]
        · have hc : checkedAdd128 (s.bal token who) amount = none := by
            unfold checkedAdd128; simp [h4]
          rw [hc]
          refine ⟨by simp, by simp, fun _ _ h => ?_⟩
          unfold pow128 at h4; omega
  · simp [h1]

/-- A genuine event that discovery has passed was delivered exactly once. -/
theorem passed_delivered (hcode : ∀ d, decode (code d) = readEvent d) (g : Deposits.Genesis) (steps : List Deposits.Step)
    (hh : Honest decode code contract F R honest g steps) (act : Active) (hact : (g.after decode steps).bridge.active = some act)
    (hlen : 0 < act.range.length) (hmax : act.range.start < 4294967295) (r0 : EthBridge.Range)
    (hr : Obs.rangeSelected r0 ∈ (g.after decode steps).bridge.log) (l : Log) (f : Found) (k : ValidEvent)
    (hg : GenuineEvent contract F l f k) (hone : ∀ l' ∈ F, BridgeLog [contract] l' → l'.txHash = l.txHash → l' = l)
    (hfrom : r0.start ≤ f.block) (hpast : f.block < act.range.start)
    (hmine : ∀ st ∈ steps, ¬ RecordedElsewhere (hashNat f.tx) st) :
    ∃ before e env ok after,
      (g.after decode steps).trace = before ++ Entry.eth .bridge e env (TokenManager.run g.tm (tmSteps decode before)).avtContract ok :: after ∧
      e.txHash = hashNat f.tx ∧ decode e.payload = readEvent f.data ∧
      hashNat f.tx ∉ hashes before ∧ hashNat f.tx ∉ hashes after ∧
      ok = (TokenManager.step env (TokenManager.run g.tm (tmSteps decode before)) (.event (readEvent f.data))).2.isNone ∧
      TokenManager.run g.tm (tmSteps decode (before ++ [Entry.eth .bridge e env
        (TokenManager.run g.tm (tmSteps decode before)).avtContract ok])) =
        (TokenManager.step env (TokenManager.run g.tm (tmSteps decode before)) (.event (readEvent f.data))).1 := by
  rw [after_bridge] at hact hr
  have h := Discovery.C97_no_event_is_lost (Deposits.bridgeHandler decode) code contract F R honest _ g.authors g.rangeSize _ hh.1 hh.2
    act hact hlen hmax r0 hr l f k hg hone hfrom hpast
  rcases h with h | ⟨op, hop, hrec⟩
  · have h' : Obs.handled (toDiscovered code f).event ∈ (g.after decode steps).bridge.log := by rw [after_bridge]; exact h
    obtain ⟨env, native, ok, hm⟩ := handled_in_trace decode g steps _ h'
    obtain ⟨before, after, hsplit⟩ := List.append_of_mem hm
    obtain ⟨hnat, hok⟩ := truthful_run decode g steps before _ _ env native ok after hsplit
    have hdec : decode (toDiscovered code f).event.payload = readEvent f.data := hcode _
    rw [hdec] at hok
    have hnd := Deposits.C90_each_transaction_once decode g steps
    rw [hsplit, Deposits.hashes_append] at hnd
    have hcons : hashes (Entry.eth .bridge (toDiscovered code f).event env native ok :: after) =
        (toDiscovered code f).event.txHash :: hashes after := rfl
    rw [hcons] at hnd
    have htx : (toDiscovered code f).event.txHash = hashNat f.tx := rfl
    rw [htx] at hnd
    obtain ⟨-, n2, n3⟩ := List.nodup_append.1 hnd
    subst hnat
    refine ⟨before, _, env, ok, after, hsplit, htx, hdec, ?_, (List.nodup_cons.1 n2).1, hok, ?_⟩
    · intro hx
      exact n3 _ hx _ List.mem_cons_self rfl
    · have : tmSteps decode (before ++ [Entry.eth .bridge (toDiscovered code f).event env
          (TokenManager.run g.tm (tmSteps decode before)).avtContract ok]) =
          tmSteps decode before ++ [(env, .event (decode (toDiscovered code f).event.payload))] := by
        simp [tmSteps]
      rw [this, Deposits.tm_run_append, hdec]
      rfl
  · obtain ⟨st, h1, h2⟩ := recorded_elsewhere decode _ steps _ op hop hrec
    exact absurd h2 (hmine st h1)

/-- **C99, everything.** A lift the bridge contract has logged in a block that discovery has passed, being the only bridge event of its
transaction, has been delivered exactly once, by the bridge; and the delivery, if it succeeded, credited exactly the lifted amount of
that token to the account named in the log and changed nothing else. It succeeds unless the amount is zero or the new balance would
not fit 128 bits. -/
theorem C99_lift_is_credited_once (hcode : ∀ d, decode (code d) = readEvent d) (g : Deposits.Genesis) (steps : List Deposits.Step)
    (hh : Honest decode code contract F R honest g steps) (act : Active) (hact : (g.after decode steps).bridge.active = some act)
    (hlen : 0 < act.range.length) (hmax : act.range.start < 4294967295) (r0 : EthBridge.Range)
    (hr : Obs.rangeSelected r0 ∈ (g.after decode steps).bridge.log)
    (l : Log) (token : Addr) (who : Hash) (amount : ProxyCalls.U256) (tx : Hash) (b : Nat) (hl : l ∈ F)
    (he : Emitted contract l (.lifted token who amount) tx b) (hfit : amount.val < 2 ^ 128)
    (hone : ∀ l' ∈ F, BridgeLog [contract] l' → l'.txHash = l.txHash → l' = l)
    (hfrom : r0.start ≤ b) (hpast : b < act.range.start) (hmine : ∀ st ∈ steps, ¬ RecordedElsewhere (hashNat tx) st) :
    ∃ before e env native ok after, (g.after decode steps).trace = before ++ Entry.eth .bridge e env native ok :: after ∧
      e.txHash = hashNat tx ∧ hashNat tx ∉ hashes before ∧ hashNat tx ∉ hashes after ∧
      let s := TokenManager.run g.tm (tmSteps decode before)
      let s' := TokenManager.run g.tm (tmSteps decode (before ++ [Entry.eth .bridge e env native ok]))
      (ok = true → Credited s s' token who amount.val) ∧ (ok = false → s' = s) ∧
        (env.eventKnown = true → amount.val ≠ 0 → holding s token who + amount.val < 2 ^ 128 → ok = true) := by
  obtain ⟨f, hg, h1, h2, h3⟩ := emitted_genuine contract he hl (show ValidEvent.lifted ∈ _ by decide +kernel) (by
    intro a ha; simp only [SolEvent.amount?, Option.some.injEq] at ha; omega) rfl (by simp [SolEvent.kind])
  subst h1 h2
  obtain ⟨before, e, env, ok, after, t1, t2, -, t4, t5, t6, t7⟩ := passed_delivered decode contract hcode g steps hh act hact hlen hmax r0
    hr l f _ hg hone hfrom hpast hmine
  refine ⟨before, e, env, _, ok, after, t1, t2, t4, t5, ?_⟩
  dsimp only
  have hread : readEvent f.data = .lifted token who amount.val := by
    rw [h3]
    show TokenManager.EventData.lifted token who (amount.val % 2 ^ 128) = _
    rw [Nat.mod_eq_of_lt hfit]
  rw [t7, t6, hread]
  exact lift_effect env _ token who amount.val

/-- What the token manager is told by an event of the bridge contract, field by field. -/
def meaning : SolEvent → Option TokenManager.EventData
  | .lifted token t2 amount => some (.lifted token t2 amount.val)
  | .growth amount period => some (.growthLifted amount.val period.val)
  | .lowerClaimed lowerId => some (.lowerClaimed lowerId.val)
  | .lowerReverted token t2 _ amount lowerId => some (.lowerReverted token t2 amount.val lowerId.val)
  | _ => none

/-- **C99.** The same for every kind the token manager handles (deposit, growth, claimed lower, reverted lower): one log, in a
transaction with no other log of the bridge contract and in a block the runtime has moved past, is delivered exactly once, and the
token manager does exactly what it does with the amounts, accounts and ids the contract logged. -/
theorem C99_every_event_is_applied_as_logged (hcode : ∀ d, decode (code d) = readEvent d) (g : Deposits.Genesis)
    (steps : List Deposits.Step)
    (hh : Honest decode code contract F R honest g steps) (act : Active) (hact : (g.after decode steps).bridge.active = some act)
    (hlen : 0 < act.range.length) (hmax : act.range.start < 4294967295) (r0 : EthBridge.Range)
    (hr : Obs.rangeSelected r0 ∈ (g.after decode steps).bridge.log)
    (l : Log) (ev : SolEvent) (d : TokenManager.EventData) (hd : meaning ev = some d) (tx : Hash) (b : Nat) (hl : l ∈ F)
    (he : Emitted contract l ev tx b) (hfit : ∀ a, ev.amount? = some a → a < 2 ^ 128)
    (hone : ∀ l' ∈ F, BridgeLog [contract] l' → l'.txHash = l.txHash → l' = l)
    (hfrom : r0.start ≤ b) (hpast : b < act.range.start) (hmine : ∀ st ∈ steps, ¬ RecordedElsewhere (hashNat tx) st) :
    ∃ before e env native ok after, (g.after decode steps).trace = before ++ Entry.eth .bridge e env native ok :: after ∧
      e.txHash = hashNat tx ∧ hashNat tx ∉ hashes before ∧ hashNat tx ∉ hashes after ∧
      let s := TokenManager.run g.tm (tmSteps decode before)
      let r := TokenManager.step env s (.event d)
      ok = r.2.isNone ∧ TokenManager.run g.tm (tmSteps decode (before ++ [Entry.eth .bridge e env native ok])) = r.1 := by
  obtain ⟨f, hg, h1, h2, h3⟩ := emitted_genuine contract he hl
    (by cases ev <;> simp only [meaning, reduceCtorEq] at hd <;> (simp only [SolEvent.kind]; decide +kernel)) hfit
    (by cases ev <;> simp only [meaning, reduceCtorEq] at hd <;> rfl)
    (by cases ev <;> simp only [meaning, reduceCtorEq] at hd <;> simp [SolEvent.kind])
  subst h1 h2
  obtain ⟨before, e, env, ok, after, t1, t2, -, t4, t5, t6, t7⟩ := passed_delivered decode contract hcode g steps hh act hact hlen hmax r0
    hr l f _ hg hone hfrom hpast hmine
  refine ⟨before, e, env, _, ok, after, t1, t2, t4, t5, ?_⟩
  have hread : readEvent f.data = d := by
    rw [h3]
    cases ev <;> simp only [meaning, Option.some.injEq, reduceCtorEq] at hd <;> subst hd
    · rename_i token t2 amount
      show TokenManager.EventData.lifted token t2 (amount.val % 2 ^ 128) = _
      rw [Nat.mod_eq_of_lt (hfit _ rfl)]
    · rename_i amount period
      show TokenManager.EventData.growthLifted (amount.val % 2 ^ 128) period.val = _
      rw [Nat.mod_eq_of_lt (hfit _ rfl)]
    · rfl
    · rename_i token t2 rc amount lowerId
      show TokenManager.EventData.lowerReverted token t2 (amount.val % 2 ^ 128) lowerId.val = _
      rw [Nat.mod_eq_of_lt (hfit _ rfl)]
  dsimp only
  rw [t7, hread]
  rw [hread] at t6
  exact ⟨t6, rfl⟩

/-- **C99, supply.** For every token other than the native one: what exists on the parachain, plus what was lowered, is at most what
existed at genesis, plus what the logs of the bridge contract on Ethereum say was deposited (or returned) of it, plus what the older
path created. -/
theorem C99_supply_is_backed_by_ethereum (hcode : ∀ d, decode (code d) = readEvent d) (g : Deposits.Genesis)
    (steps : List Deposits.Step) (hh : Honest decode code contract F R honest g steps) (t : Addr) (n : Nat)
    (h : TokenManager.Supply g.tm t n) :
    ∃ m, TokenManager.Supply (g.after decode steps).tm t m ∧
      m + TokenManager.burnedRun g.tm t (tmSteps decode (g.after decode steps).trace) ≤
        n + (F.map (deposited contract t)).sum + ((g.after decode steps).trace.map (legacyCredit decode t)).sum := by
  obtain ⟨m, h1, h2, hnd⟩ := Deposits.C90_supply_is_backed_by_distinct_deposits decode g steps t n h
  refine ⟨m, h1, ?_⟩
  rw [h2]
  have hgen : ∀ e env native ok, Entry.eth .bridge e env native ok ∈ (g.after decode steps).trace →
      ∃ l ∈ F, l.txHash.map hashNat = some e.txHash ∧
        Deposits.credit decode t (.eth .bridge e env native ok) ≤ deposited contract t l := by
    intro e env native ok hm
    obtain ⟨l, f, k, hg, q1, q2⟩ := C99_delivered_events_are_on_ethereum decode contract hcode g steps hh e env native ok hm
    refine ⟨l, hg.onChain, by rw [(parseLog_ok hg.reads).1, q1]; rfl, ?_⟩
    simp only [Deposits.credit, deposited, hg.ofBridge, hg.reads, if_true, q2]
    split_ifs
    · cases f.data <;> simp [readEvent]
    · exact Nat.zero_le _
  generalize (g.after decode steps).trace = tr at hgen hnd
  have key : ∃ ls : List Log, (∀ l ∈ ls, l ∈ F) ∧ (ls.map fun l => l.txHash.map hashNat).Nodup ∧
      (∀ l ∈ ls, ∃ x ∈ hashes tr, l.txHash.map hashNat = some x) ∧
      (tr.map (Deposits.credit decode t)).sum ≤ (ls.map (deposited contract t)).sum + (tr.map (legacyCredit decode t)).sum := by
    clear h2
    induction tr with
    | nil => exact ⟨[], by simp, by simp, by simp, by simp⟩
    | cons x tr ih =>
      have hnd' : (hashes tr).Nodup := by
        cases x with
        | call env st => exact hnd
        | eth p e env native ok => exact (List.nodup_cons.1 (show (e.txHash :: hashes tr).Nodup from hnd)).2
      obtain ⟨ls, k1, k2, k3, k4⟩ := ih (fun e env native ok hm => hgen e env native ok (List.mem_cons_of_mem _ hm)) hnd'
      have hsub : ∀ y ∈ hashes tr, y ∈ hashes (x :: tr) := by
        intro y hy
        cases x with
        | call env st => exact hy
        | eth p e env native ok => exact List.mem_cons_of_mem _ hy
      have hk3 : ∀ l ∈ ls, ∃ y ∈ hashes (x :: tr), l.txHash.map hashNat = some y := by
        intro l hl
        obtain ⟨y, hy, hh⟩ := k3 l hl
        exact ⟨y, hsub y hy, hh⟩
      simp only [List.map_cons, List.sum_cons]
      cases x with
      | call env st =>
        refine ⟨ls, k1, k2, hk3, ?_⟩
        have : legacyCredit decode t (.call env st) = Deposits.credit decode t (.call env st) := rfl
        omega
      | eth p e env native ok =>
        cases p with
        | legacy =>
          refine ⟨ls, k1, k2, hk3, ?_⟩
          have : legacyCredit decode t (.eth .legacy e env native ok) = Deposits.credit decode t (.eth .legacy e env native ok) := rfl
          omega
        | bridge =>
          obtain ⟨l, q1, q2, q3⟩ := hgen e env native ok List.mem_cons_self
          have hnew : e.txHash ∉ hashes tr := (List.nodup_cons.1 (show (e.txHash :: hashes tr).Nodup from hnd)).1
          refine ⟨l :: ls, ?_, ?_, ?_, ?_⟩
          · intro l' hl'
            rcases List.mem_cons.1 hl' with rfl | hl'
            · exact q1
            · exact k1 l' hl'
          · rw [List.map_cons, List.nodup_cons]
            refine ⟨?_, k2⟩
            intro hm
            obtain ⟨l', hl', hhh⟩ := List.mem_map.1 hm
            obtain ⟨y, hy, hhy⟩ := k3 l' hl'
            rw [hhh, q2] at hhy
            cases hhy
            exact hnew hy
          · intro l' hl'
            rcases List.mem_cons.1 hl' with rfl | hl'
            · exact ⟨e.txHash, List.mem_cons_self, q2⟩
            · exact hk3 l' hl'
          · simp only [List.map_cons, List.sum_cons]
            have : legacyCredit decode t (.eth .bridge e env native ok) = 0 := rfl
            omega
  obtain ⟨ls, k1, k2, -, k4⟩ := key
  have hsp : ls.Subperm F := List.Nodup.subperm (List.Nodup.of_map _ k2) k1
  have hle : (ls.map (deposited contract t)).sum ≤ (F.map (deposited contract t)).sum := by
    obtain ⟨ls', hp, hs⟩ := hsp
    rw [← (hp.map (deposited contract t)).sum_eq]
    exact (hs.map (deposited contract t)).sum_le_sum (fun _ _ => Nat.zero_le _)
  omega

/-- **C99, a kind of lift that is lost.** A lift to the prediction market is taken by discovery like every other lift and its delivery
reports success, but no account is credited: the production runtime has no handler for it. -/
theorem C99_prediction_market_lift_is_not_credited (hcode : ∀ d, decode (code d) = readEvent d) (g : Deposits.Genesis)
    (steps : List Deposits.Step)
    (hh : Honest decode code contract F R honest g steps) (act : Active) (hact : (g.after decode steps).bridge.active = some act)
    (hlen : 0 < act.range.length) (hmax : act.range.start < 4294967295) (r0 : EthBridge.Range)
    (hr : Obs.rangeSelected r0 ∈ (g.after decode steps).bridge.log)
    (l : Log) (token : Addr) (who : Hash) (amount : ProxyCalls.U256) (tx : Hash) (b : Nat) (hl : l ∈ F)
    (he : Emitted contract l (.liftedToPredictionMarket token who amount) tx b) (hfit : amount.val < 2 ^ 128)
    (hone : ∀ l' ∈ F, BridgeLog [contract] l' → l'.txHash = l.txHash → l' = l)
    (hfrom : r0.start ≤ b) (hpast : b < act.range.start) (hmine : ∀ st ∈ steps, ¬ RecordedElsewhere (hashNat tx) st) :
    ∃ before e env native after, (g.after decode steps).trace = before ++ Entry.eth .bridge e env native true :: after ∧
      e.txHash = hashNat tx ∧ hashNat tx ∉ hashes before ∧ hashNat tx ∉ hashes after ∧
      TokenManager.run g.tm (tmSteps decode (before ++ [Entry.eth .bridge e env native true])) =
        TokenManager.run g.tm (tmSteps decode before) := by
  obtain ⟨f, hg, h1, h2, h3⟩ := emitted_genuine contract he hl (show ValidEvent.liftedToPredictionMarket ∈ _ by decide +kernel) (by
    intro a ha; simp only [SolEvent.amount?, Option.some.injEq] at ha; omega) rfl (by simp [SolEvent.kind])
  subst h1 h2
  obtain ⟨before, e, env, ok, after, t1, t2, -, t4, t5, t6, t7⟩ := passed_delivered decode contract hcode g steps hh act hact hlen hmax r0
    hr l f _ hg hone hfrom hpast hmine
  have hread : readEvent f.data = .other := by rw [h3]; rfl
  rw [hread] at t6 t7
  have hok : ok = true := by rw [t6]; rfl
  subst hok
  exact ⟨before, e, env, _, after, t1, t2, t4, t5, by rw [t7]; rfl⟩

/-! ### A concrete history -/

/-- A codec of the event data. -/
def exCode (d : EventData) : Nat :=
  match readEvent d with
  | .other => 0
  | .lifted t r a => 5 * (beVal t.toList + 2 ^ 160 * (beVal r.toList + 2 ^ 256 * a)) + 1
  | .growthLifted a p => 5 * (p + 2 ^ 32 * a) + 2
  | .lowerClaimed i => 5 * i + 3
  | .lowerReverted t r a i => 5 * (i + 2 ^ 32 * (beVal t.toList + 2 ^ 160 * (beVal r.toList + 2 ^ 256 * a))) + 4
/-- Bytes of a number. -/
def exBytes (k n : Nat) : Vector UInt8 k := Parsing.fromSlice k (beBytes k n)
/-- See `exCode`. -/
def exRead (tag m : Nat) : TokenManager.EventData :=
  match tag with
  | 1 => .lifted (exBytes 20 (m % 2 ^ 160)) (exBytes 32 (m / 2 ^ 160 % 2 ^ 256)) (m / 2 ^ 160 / 2 ^ 256)
  | 2 => .growthLifted (m / 2 ^ 32) (m % 2 ^ 32)
  | 3 => .lowerClaimed m
  | 4 =>
    .lowerReverted (exBytes 20 (m / 2 ^ 32 % 2 ^ 160)) (exBytes 32 (m / 2 ^ 32 / 2 ^ 160 % 2 ^ 256)) (m / 2 ^ 32 / 2 ^ 160 / 2 ^ 256) (m % 2 ^ 32)
  | _ => .other
/-- See `exCode`. -/
def exDecode (n : Nat) : TokenManager.EventData := exRead (n % 5) (n / 5)

theorem exBytes_val {k : Nat} (v : Vector UInt8 k) : exBytes k (beVal v.toList) = v := by
  have h : beBytes k (beVal v.toList) = v.toList := by
    unfold beBytes beVal
    have h2 := leBytes_leVal v.toList.reverse
    rw [List.length_reverse, Vector.length_toList] at h2
    rw [h2, List.reverse_reverse]
  unfold exBytes
  rw [h]
  exact Parsing.fromSlice_toList v

theorem exUnpack (b x y : Nat) (h : x < b) : (x + b * y) % b = x ∧ (x + b * y) / b = y := by
  constructor
  · rw [Nat.add_mul_mod_self_left, Nat.mod_eq_of_lt h]
  · rw [Nat.add_mul_div_left _ _ (by omega), Nat.div_eq_of_lt h, Nat.zero_add]

theorem exVal_lt {k : Nat} (v : Vector UInt8 k) : beVal v.toList < 256 ^ k := by
  have := Parsing.beVal_lt v.toList
  rwa [Vector.length_toList] at this

theorem exDecode_tag (m j : Nat) (h : j < 5) : exDecode (5 * m + j) = exRead j m := by
  unfold exDecode
  rw [show (5 * m + j) % 5 = j by omega, show (5 * m + j) / 5 = m by omega]

theorem exCodec (d : EventData) : exDecode (exCode d) = readEvent d := by
  cases d with
  | lifted d =>
    have h20 : beVal d.tokenContract.toList < 2 ^ 160 := lt_of_lt_of_eq (exVal_lt d.tokenContract) (by norm_num)
    have h32 : beVal d.receiverAddress.toList < 2 ^ 256 := lt_of_lt_of_eq (exVal_lt d.receiverAddress) (by norm_num)
    show exDecode (5 * (beVal d.tokenContract.toList + 2 ^ 160 * (beVal d.receiverAddress.toList + 2 ^ 256 * d.amount.val)) + 1) = _
    rw [exDecode_tag _ 1 (by omega)]
    unfold exRead
    rw [(exUnpack _ _ _ h20).1, (exUnpack _ _ _ h20).2, (exUnpack _ _ _ h32).1, (exUnpack _ _ _ h32).2, exBytes_val, exBytes_val]
    rfl
  | avtGrowthLifted d =>
    show exDecode (5 * (d.period.val + 2 ^ 32 * d.amount.val) + 2) = _
    rw [exDecode_tag _ 2 (by omega)]
    unfold exRead
    rw [(exUnpack _ _ _ d.period.isLt).1, (exUnpack _ _ _ d.period.isLt).2]
    rfl
  | lowerClaimed d =>
    show exDecode (5 * d.lowerId.val + 3) = _
    rw [exDecode_tag _ 3 (by omega)]
    rfl
  | lowerReverted d =>
    have h20 : beVal d.tokenContract.toList < 2 ^ 160 := lt_of_lt_of_eq (exVal_lt d.tokenContract) (by norm_num)
    have h32 : beVal d.receiverAddress.toList < 2 ^ 256 := lt_of_lt_of_eq (exVal_lt d.receiverAddress) (by norm_num)
    show exDecode (5 * (d.lowerId.val + 2 ^ 32 * (beVal d.tokenContract.toList + 2 ^ 160 * (beVal d.receiverAddress.toList +
      2 ^ 256 * d.amount.val))) + 4) = _
    rw [exDecode_tag _ 4 (by omega)]
    unfold exRead
    rw [(exUnpack _ _ _ d.lowerId.isLt).1, (exUnpack _ _ _ d.lowerId.isLt).2, (exUnpack _ _ _ h20).1, (exUnpack _ _ _ h20).2,
      (exUnpack _ _ _ h32).1, (exUnpack _ _ _ h32).2, exBytes_val, exBytes_val]
    rfl
  | _ => rfl

/-- A lift of 7 units of token 3 to account 4, a lift to the prediction market, each in a transaction of its own. -/
def exLift : Log :=
  { address := exBridge
    topics := [sigHash .lifted, exBytes 32 (beVal (List.replicate 20 3)), Vector.replicate 32 4]
    data := beBytes 32 7, txHash := some exTx, block := some 100 }
def exLift2 : Log :=
  { address := exBridge
    topics := [sigHash .liftedToPredictionMarket, exBytes 32 (beVal (List.replicate 20 3)), Vector.replicate 32 4]
    data := beBytes 32 8, txHash := some exTx2, block := some 101 }
def exF : List Log := [exLift, exLift2]
def exR (_ : Hash) : Option Nat := none
def exNode (me : Nat) (latest : Nat) : Node := { me := me, latest := latest, chain := exF, receipt := exR, order := id }
def exToken : Addr := Vector.replicate 20 3
def exWho : Hash := Vector.replicate 32 4

theorem exLift_emitted : Emitted exBridge exLift (.lifted exToken exWho 7) exTx 100 :=
  ⟨rfl, by decide +kernel, by decide +kernel, rfl, rfl⟩
theorem exLift2_emitted : Emitted exBridge exLift2 (.liftedToPredictionMarket exToken exWho 8) exTx2 101 :=
  ⟨rfl, by decide +kernel, by decide +kernel, rfl, rfl⟩

/-- The partition the nodes vote for. -/
def exTruth : EthBridge.Partition :=
  ⟨⟨100, 10⟩, 0, true,
    [toDiscovered exCode ⟨sigHash .lifted, exTx, .lifted ⟨exToken, Vector.replicate 20 0, exWho, 7, 0⟩, 100⟩,
     toDiscovered exCode ⟨sigHash .liftedToPredictionMarket, exTx2,
       .liftedToPredictionMarket ⟨exToken, Vector.replicate 20 0, exWho, 8, 0⟩, 101⟩]⟩
/-- A forged one: the dishonest author 3 lifts 99 units to itself. -/
def exForged : EthBridge.Partition :=
  ⟨⟨100, 10⟩, 0, true, [toDiscovered exCode ⟨sigHash .lifted, exTx, .lifted ⟨exToken, Vector.replicate 20 0, exWho, 99, 0⟩, 100⟩]⟩

def exEnvs (_ : EthEvent) : TokenManager.Env := Deposits.exEnv
def exSteps : List Deposits.Step :=
  [.bridge exEnvs (.submitBlock 1 158), .bridge exEnvs (.submitBlock 2 160), .block 5 [], .bridge exEnvs (.submitEvents 3 exForged),
   .bridge exEnvs (.submitEvents 1 exTruth), .bridge exEnvs (.submitEvents 2 exTruth),
   .token Deposits.exEnv (.rootSetPeriod 12)]

theorem exNode_faithful (me latest : Nat) (h : 130 ≤ latest) : Discovery.Faithful exF exR (exNode me latest) := by
  refine ⟨rfl, fun _ _ _ => Iff.rfl, ?_, fun l => List.Perm.refl l⟩
  intro l hl l' hl' tx h1 h2
  have hne : exLift.txHash ≠ exLift2.txHash := by decide +kernel
  simp only [exNode, exF, List.mem_cons, List.not_mem_nil, or_false] at hl hl'
  rcases hl with rfl | rfl <;> rcases hl' with rfl | rfl
  · rfl
  · exact absurd (h1.trans h2.symm) hne
  · exact absurd (h2.trans h1.symm) hne
  · rfl

/-- The call of an author, without the type of the rest of the runtime. -/
def exCall {W : Type} : EthBridge.Step W → Option (Nat × EthBridge.Partition ⊕ Nat × Nat)
  | .submitEvents a p => some (.inl (a, p))
  | .submitBlock a n => some (.inr (a, n))
  | _ => none

theorem exCall_events {W : Type} {o : Option (EthBridge.Step W)} {a : Nat} {p : EthBridge.Partition}
    (h : o.bind exCall = some (.inl (a, p))) : o = some (.submitEvents a p) := by
  cases o with
  | none => simp at h
  | some o => cases o <;> simp [exCall] at h ⊢; exact h

theorem exCall_block {W : Type} {o : Option (EthBridge.Step W)} {a n : Nat}
    (h : o.bind exCall = some (.inr (a, n))) : o = some (.submitBlock a n) := by
  cases o with
  | none => simp at h
  | some o => cases o <;> simp [exCall] at h ⊢; exact h

/-- The state of the bridge after `n` of the bridge's steps. -/
def exAt (n : Nat) : EthBridge.State Deposits.World :=
  EthBridge.run (Deposits.bridgeHandler exDecode) (Deposits.exGenesis.after exDecode []).bridge
    ((bridgeHistory exDecode (Deposits.exGenesis.after exDecode []) exSteps).take n)

theorem exHonest : Honest exDecode exCode exBridge exF exR (· ≠ 3) Deposits.exGenesis exSteps := by
  have hfa1 := exNode_faithful 1 158 (by decide)
  have hfa2 := exNode_faithful 2 160 (by decide)
  have r1 : Discovery.workerRound exCode exBridge (exNode 1 158) ⟨exAt 1, exAt 1, exAt 1, exAt 1⟩ = some (.submitBlock 1 158) :=
    exCall_block (by decide +kernel)
  have r2 : Discovery.workerRound exCode exBridge (exNode 2 160) ⟨exAt 3, exAt 3, exAt 3, exAt 3⟩ = some (.submitBlock 2 160) :=
    exCall_block (by decide +kernel)
  have r3 : Discovery.workerRound exCode exBridge (exNode 1 158) ⟨exAt 7, exAt 7, exAt 7, exAt 7⟩ = some (.submitEvents 1 exTruth) :=
    exCall_events (by decide +kernel)
  have r4 : Discovery.workerRound exCode exBridge (exNode 2 160) ⟨exAt 9, exAt 9, exAt 9, exAt 9⟩ = some (.submitEvents 2 exTruth) :=
    exCall_events (by decide +kernel)
  have hauth : ∀ n : Fin 12, (exAt n).authors = [1, 2, 3, 4] := by decide +kernel
  constructor
  · intro pre op post x he hc hx
    have hpre : (bridgeHistory exDecode (Deposits.exGenesis.after exDecode []) exSteps).take pre.length = pre := by rw [he]; simp
    have hop : (bridgeHistory exDecode (Deposits.exGenesis.after exDecode []) exSteps)[pre.length]? = some op := by rw [he]; simp
    have hlen : pre.length < 11 := by
      have := congrArg List.length he
      have h11 : (bridgeHistory exDecode (Deposits.exGenesis.after exDecode []) exSteps).length = 11 := rfl
      rw [h11] at this; simp at this; omega
    have fin : ∀ (n m : Nat), pre.length = n → ∀ nd, nd.me = x → Discovery.Faithful exF exR nd →
        Discovery.workerRound exCode exBridge nd ⟨exAt n, exAt n, exAt n, exAt n⟩ = some op →
        Discovery.ByWorker (Deposits.bridgeHandler exDecode) exCode exBridge exF exR x (Deposits.exGenesis.after exDecode []).bridge pre op := by
      intro n m hn nd hme hf hw
      have : exAt n = EthBridge.run (Deposits.bridgeHandler exDecode) (Deposits.exGenesis.after exDecode []).bridge pre := by
        unfold exAt; rw [← hn, hpre]
      rw [this] at hw
      rw [← hme]
      exact Discovery.ByWorker.now nd hf hw
    have hcases : pre.length = 0 ∨ pre.length = 1 ∨ pre.length = 2 ∨ pre.length = 3 ∨ pre.length = 4 ∨ pre.length = 5 ∨ pre.length = 6 ∨
        pre.length = 7 ∨ pre.length = 8 ∨ pre.length = 9 ∨ pre.length = 10 := by omega
    rcases hcases with h | h | h | h | h | h | h | h | h | h | h <;> rw [h] at hop <;> injection hop with hop <;> subst hop <;>
      first
      | (cases hc; done)
      | (cases hc; exact absurd rfl hx)
      | (cases hc; exact fin 1 0 h _ rfl hfa1 r1)
      | (cases hc; exact fin 3 0 h _ rfl hfa2 r2)
      | (cases hc; exact fin 7 0 h _ rfl hfa1 r3)
      | (cases hc; exact fin 9 0 h _ rfl hfa2 r4)
  · intro pre op post p he _
    refine ⟨[3], ?_, fun x _ hx => ?_⟩
    · have hpre : (bridgeHistory exDecode (Deposits.exGenesis.after exDecode []) exSteps).take pre.length = pre := by rw [he]; simp
      have hlen : pre.length < 12 := by
        have := congrArg List.length he
        have h11 : (bridgeHistory exDecode (Deposits.exGenesis.after exDecode []) exSteps).length = 11 := rfl
        rw [h11] at this; simp at this; omega
      have := hauth ⟨pre.length, hlen⟩
      unfold exAt at this
      dsimp only at this
      rw [hpre] at this
      rw [this]; decide
    · by_cases h : x = 3
      · simp [h]
      · exact absurd h hx

theorem exOne : ∀ l ∈ exF, ∀ l' ∈ exF, BridgeLog [exBridge] l' → l'.txHash = l.txHash → l' = l := by
  have hne : exLift.txHash ≠ exLift2.txHash := by decide +kernel
  intro l hl l' hl' _ h
  simp only [exF, List.mem_cons, List.not_mem_nil, or_false] at hl hl'
  rcases hl with rfl | rfl <;> rcases hl' with rfl | rfl
  · rfl
  · exact absurd h.symm hne
  · exact absurd h hne
  · rfl

theorem exMine (h : Nat) : ∀ st ∈ exSteps, ¬ RecordedElsewhere h st := by
  intro st hst
  simp only [exSteps, List.mem_cons, List.not_mem_nil, or_false] at hst
  rcases hst with rfl | rfl | rfl | rfl | rfl | rfl | rfl <;> exact fun h => h

/-- The lift of 7 is credited although author 3 voted for 99. -/
example : (Deposits.exGenesis.after exDecode exSteps).tm.bal exToken exWho = 7 ∧
    TokenManager.Supply Deposits.exGenesis.tm exToken 0 := ⟨by decide +kernel, ⟨∅, by simp [Deposits.exGenesis, Deposits.exTm]⟩⟩

example := C99_lift_is_credited_once exDecode exBridge exCodec Deposits.exGenesis exSteps exHonest
  ⟨⟨110, 10⟩, 0, Events.corePrimaryFilter, []⟩ (by decide +kernel) (by decide) (by decide) ⟨100, 10⟩ (by decide +kernel) exLift exToken exWho 7
  exTx 100 (by simp [exF]) exLift_emitted (by decide) (exOne exLift (by simp [exF])) (by decide) (by decide) (exMine _)

example := C99_prediction_market_lift_is_not_credited exDecode exBridge exCodec Deposits.exGenesis exSteps exHonest
  ⟨⟨110, 10⟩, 0, Events.corePrimaryFilter, []⟩ (by decide +kernel) (by decide) (by decide) ⟨100, 10⟩ (by decide +kernel) exLift2 exToken exWho 8
  exTx2 101 (by simp [exF]) exLift2_emitted (by decide) (exOne exLift2 (by simp [exF])) (by decide) (by decide) (exMine _)

example : (exF.map (deposited exBridge exToken)).sum = 7 := by decide +kernel

end Verif.EndToEnd
