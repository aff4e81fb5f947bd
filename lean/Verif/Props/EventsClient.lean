import Verif.Model.EventsClient
import Verif.Lemmas.EventParsing
import Verif.Props.EthBridgeEvents

/-!
# Properties C71 and C74: what an author reports about a range of Ethereum blocks
-/

namespace Verif.EventsClient

open Verif (Addr Hash)
open Verif.Events (ValidEvent values isPrimary signature tryFrom)
open Verif.Parsing (EventData parse)

/-! ## Specification -/

/-- The first topic of a log is the signature of kind `k`. -/
def HasKind (l : Log) (k : ValidEvent) : Prop := ∃ t ts, l.topics = t :: ts ∧ hashNat t = signature k

/-- A log in blocks `lo` to `hi`. -/
def InBlocks (lo hi : Nat) (l : Log) : Prop := ∃ b, l.block = some b ∧ lo ≤ b ∧ b ≤ hi

/-- A primary event of one of the bridge contracts. -/
def BridgeLog (contracts : List Addr) (l : Log) : Prop := l.address ∈ contracts ∧ ∃ k, isPrimary k = true ∧ HasKind l k

/-- An ERC-20 transfer to one of the bridge contracts. -/
def DirectTransferLog (contracts : List Addr) (l : Log) : Prop :=
  HasKind l .erc20DirectTransfer ∧ ∃ t c, l.topics[2]? = some t ∧ c ∈ contracts ∧ t.toList = List.replicate 12 0 ++ c.toList

/-- Direct transfers are looked for. -/
def WantsTransfers (wanted : List Hash) : Prop := ∃ s ∈ wanted, hashNat s = signature .erc20DirectTransfer

/-- The logs an author has to consider. -/
def Relevant (lo hi : Nat) (contracts : List Addr) (wanted : List Hash) (l : Log) : Prop :=
  InBlocks lo hi l ∧ (BridgeLog contracts l ∨ (WantsTransfers wanted ∧ DirectTransferLog contracts l))

/-! ## The loop -/

theorem parseLog_ok {l : Log} {f : Found} (h : parseLog l = .ok f) :
    l.txHash = some f.tx ∧ (∃ ts, l.topics = f.sig :: ts) ∧ l.block = some f.block := by
  unfold parseLog at h
  split at h
  · cases h
  · rename_i t ts ht
    split at h
    · cases h
    · rename_i tx htx
      split at h
      · cases h
      · split at h
        · cases h
        · cases h
        · split at h
          · cases h
          · rename_i b hb
            cases h
            exact ⟨htx, ⟨ts, ht⟩, hb⟩

/-- The first log of a transaction. -/
def firstLog (ls : List Log) (tx : Hash) : Option Log := ls.find? fun l => l.txHash == some tx

theorem collect_mem {acc fs : List Found} {ls : List Log} (h : collect acc ls = .ok fs) (f : Found) :
    f ∈ fs ↔ f ∈ acc ∨ ((∀ a ∈ acc, a.tx ≠ f.tx) ∧ ∃ l, firstLog ls f.tx = some l ∧ parseLog l = .ok f) := by
  induction ls generalizing acc with
  | nil => cases h; simp [firstLog]
  | cons l ls ih =>
    rw [collect] at h
    cases htx : l.txHash with
    | none =>
      rw [htx] at h
      rw [ih h]
      simp [firstLog, htx]
    | some tx =>
      rw [htx] at h
      dsimp only at h
      by_cases hin : (acc.any fun f => f.tx == tx) = true
      · rw [if_pos hin] at h
        rw [ih h]
        obtain ⟨a, ha, hat⟩ := List.any_eq_true.1 hin
        have hat : a.tx = tx := by simpa using hat
        apply or_congr_right
        apply and_congr_right
        intro hne
        have : tx ≠ f.tx := fun e => hne a ha (hat.trans e)
        simp [firstLog, htx, this]
      · rw [if_neg hin] at h
        have hno : ∀ a ∈ acc, a.tx ≠ tx := by
          intro a ha e
          exact hin (List.any_eq_true.2 ⟨a, ha, by simp [e]⟩)
        cases hp : parseLog l with
        | error e => rw [hp] at h; cases h
        | ok g =>
          rw [hp] at h
          have hg : g.tx = tx := by have := (parseLog_ok hp).1; rw [htx] at this; cases this; rfl
          rw [ih h]
          by_cases hf : f.tx = tx
          · have hfl : firstLog (l :: ls) f.tx = some l := by simp [firstLog, htx, hf]
            rw [hfl]
            simp only [List.mem_append, List.mem_singleton]
            constructor
            · rintro ((hfa | rfl) | ⟨hn, _⟩)
              · exact Or.inl hfa
              · exact Or.inr ⟨by rw [hf]; exact hno, l, rfl, hp⟩
              · exact absurd (hg.trans hf.symm) (hn g (Or.inr rfl))
            · rintro (hfa | ⟨_, l', hl', hp'⟩)
              · exact Or.inl (Or.inl hfa)
              · cases hl'; rw [hp] at hp'; cases hp'; exact Or.inl (Or.inr rfl)
          · have hne : tx ≠ f.tx := fun e => hf e.symm
            have hfl : firstLog (l :: ls) f.tx = firstLog ls f.tx := by simp [firstLog, htx, hne]
            rw [hfl]
            simp only [List.mem_append, List.mem_singleton]
            have hfg : f ≠ g := fun e => hf (by rw [e, hg])
            constructor
            · rintro ((hfa | e) | ⟨hn, hl⟩)
              · exact Or.inl hfa
              · exact absurd e hfg
              · exact Or.inr ⟨fun a ha => hn a (Or.inl ha), hl⟩
            · rintro (hfa | ⟨hn, hl⟩)
              · exact Or.inl (Or.inl hfa)
              · refine Or.inr ⟨?_, hl⟩
                rintro a (ha | rfl)
                · exact hn a ha
                · rw [hg]; exact hne

theorem collect_ok {acc : List Found} {ls : List Log} (h : ∀ l ∈ ls, l.txHash ≠ none → ∃ f, parseLog l = .ok f) :
    ∃ fs, collect acc ls = .ok fs := by
  induction ls generalizing acc with
  | nil => exact ⟨acc, rfl⟩
  | cons l ls ih =>
    have ih' := fun a => @ih a fun l' hl' => h l' (List.mem_cons_of_mem _ hl')
    rw [collect]
    cases htx : l.txHash with
    | none => exact ih' acc
    | some tx =>
      dsimp only
      split
      · exact ih' acc
      · obtain ⟨f, hf⟩ := h l (List.mem_cons_self) (by rw [htx]; simp)
        rw [hf]
        exact ih' _

theorem collect_nodup {acc fs : List Found} {ls : List Log} (h : collect acc ls = .ok fs) (hn : (acc.map Found.tx).Nodup) :
    (fs.map Found.tx).Nodup := by
  induction ls generalizing acc with
  | nil => cases h; exact hn
  | cons l ls ih =>
    rw [collect] at h
    cases htx : l.txHash with
    | none => rw [htx] at h; exact ih h hn
    | some tx =>
      rw [htx] at h
      dsimp only at h
      by_cases hin : (acc.any fun f => f.tx == tx) = true
      · rw [if_pos hin] at h; exact ih h hn
      · rw [if_neg hin] at h
        cases hp : parseLog l with
        | error e => rw [hp] at h; cases h
        | ok g =>
          rw [hp] at h
          have hg : g.tx = tx := by have := (parseLog_ok hp).1; rw [htx] at this; cases this; rfl
          refine ih h ?_
          rw [List.map_append, List.nodup_append]
          refine ⟨hn, by simp, ?_⟩
          intro a ha b hb e
          obtain ⟨f, hf, rfl⟩ := List.mem_map.1 ha
          simp only [List.map_cons, List.map_nil, List.mem_singleton] at hb
          exact hin (List.any_eq_true.2 ⟨f, hf, by simp [e, hb, hg]⟩)

/-! ## The logs asked for -/

/-- The logs `identify_events` iterates over: primary ones first. -/
def candidates (chain : List Log) (lo hi : Nat) (contracts : List Addr) (wanted : List Hash) : List Log :=
  primaryLogs chain lo hi contracts (values.filter isPrimary) ++
    (if ((wanted.filterMap fun s => tryFrom (hashNat s)).any fun k => (values.filter fun k => !isPrimary k).contains k)
      then secondaryLogs chain lo hi contracts (values.filter fun k => !isPrimary k) else [])

theorem identify_eq (chain : List Log) (lo hi : Nat) (contracts : List Addr) (wanted : List Hash) :
    identifyEvents chain lo hi contracts wanted =
      match collect [] (candidates chain lo hi contracts wanted) with
      | .error e => .error e
      | .ok fs => .ok (fs.filter fun f => wanted.contains f.sig) := rfl

theorem identify_ok {chain : List Log} {lo hi : Nat} {contracts : List Addr} {wanted : List Hash} {fs : List Found}
    (h : identifyEvents chain lo hi contracts wanted = .ok fs) :
    ∃ gs, collect [] (candidates chain lo hi contracts wanted) = .ok gs ∧ fs = gs.filter fun f => wanted.contains f.sig := by
  rw [identify_eq] at h
  split at h
  · cases h
  · rename_i gs hg; cases h; exact ⟨gs, hg, rfl⟩

theorem mem_identify {chain : List Log} {lo hi : Nat} {contracts : List Addr} {wanted : List Hash} {fs : List Found}
    (h : identifyEvents chain lo hi contracts wanted = .ok fs) (f : Found) :
    f ∈ fs ↔ f.sig ∈ wanted ∧ ∃ l, firstLog (candidates chain lo hi contracts wanted) f.tx = some l ∧ parseLog l = .ok f := by
  obtain ⟨gs, hg, rfl⟩ := identify_ok h
  rw [List.mem_filter, collect_mem hg]
  simp [and_comm]

theorem inRange_iff (lo hi : Nat) (l : Log) : inRange lo hi l = true ↔ InBlocks lo hi l := by
  unfold inRange InBlocks
  cases l.block <;> simp

theorem topic0In_iff (ks : List ValidEvent) (l : Log) : topic0In ks l = true ↔ ∃ k ∈ ks, HasKind l k := by
  unfold topic0In HasKind
  cases l.topics with
  | nil => simp
  | cons t ts =>
    simp only [List.any_eq_true, beq_iff_eq, List.cons.injEq]
    constructor
    · rintro ⟨k, hk, h⟩; exact ⟨k, hk, t, ts, ⟨rfl, rfl⟩, h.symm⟩
    · rintro ⟨k, hk, t', ts', ⟨rfl, rfl⟩, h⟩; exact ⟨k, hk, h.symm⟩

theorem mem_values (k : ValidEvent) : k ∈ values := by cases k <;> decide

theorem primaryLogs_mem {chain : List Log} {lo hi : Nat} {contracts : List Addr} {l : Log} :
    l ∈ primaryLogs chain lo hi contracts (values.filter isPrimary) ↔ l ∈ chain ∧ InBlocks lo hi l ∧ BridgeLog contracts l := by
  unfold primaryLogs BridgeLog
  rw [List.mem_filter]
  simp only [Bool.and_eq_true, inRange_iff, topic0In_iff, List.contains_iff_mem, List.mem_filter, mem_values, true_and]
  tauto

theorem not_primary (k : ValidEvent) : isPrimary k = false ↔ k = .erc20DirectTransfer := by cases k <;> simp [isPrimary]

theorem secondaryLogs_mem {chain : List Log} {lo hi : Nat} {contracts : List Addr} {l : Log} :
    l ∈ secondaryLogs chain lo hi contracts (values.filter fun k => !isPrimary k) ↔
      l ∈ chain ∧ InBlocks lo hi l ∧ DirectTransferLog contracts l := by
  unfold secondaryLogs DirectTransferLog toBridge
  rw [List.mem_filter]
  simp only [Bool.and_eq_true, inRange_iff, topic0In_iff, List.mem_filter, mem_values, true_and, Bool.not_eq_true', not_primary,
    exists_eq_left]
  cases l.topics[2]? with
  | none => simp
  | some t =>
    simp only [List.any_eq_true, beq_iff_eq, widen, Option.some.injEq]
    constructor
    · rintro ⟨h, ⟨h1, h2⟩, c, hc, e⟩; exact ⟨h, h1, h2, t, c, rfl, hc, e.symm⟩
    · rintro ⟨h, h1, h2, t', c, rfl, hc, e⟩; exact ⟨h, ⟨h1, h2⟩, c, hc, e.symm⟩

theorem extend_iff (wanted : List Hash) :
    ((wanted.filterMap fun s => tryFrom (hashNat s)).any fun k => (values.filter fun k => !isPrimary k).contains k) = true ↔
      WantsTransfers wanted := by
  simp only [List.any_eq_true, List.mem_filterMap, List.contains_iff_mem, List.mem_filter, mem_values, true_and,
    Bool.not_eq_true', not_primary, WantsTransfers]
  constructor
  · rintro ⟨k, ⟨s, hs, hk⟩, rfl⟩
    refine ⟨s, hs, ?_⟩
    have := List.find?_some hk
    simpa using Eq.symm (by simpa using this)
  · rintro ⟨s, hs, h⟩
    refine ⟨_, ⟨s, hs, ?_⟩, rfl⟩
    rw [h]; decide

theorem candidates_mem {chain : List Log} {lo hi : Nat} {contracts : List Addr} {wanted : List Hash} {l : Log} :
    l ∈ candidates chain lo hi contracts wanted ↔ l ∈ chain ∧ Relevant lo hi contracts wanted l := by
  unfold candidates Relevant
  rw [List.mem_append, primaryLogs_mem]
  by_cases hw : WantsTransfers wanted
  · rw [if_pos ((extend_iff wanted).2 hw), secondaryLogs_mem]; tauto
  · rw [if_neg (fun h => hw ((extend_iff wanted).1 h))]; simp; tauto

/-! ## C71 -/

/-- **C71, soundness.** Everything an author reports was wanted and is the parse of a relevant log of the range; and it reports at
most one event per transaction. -/
theorem C71_reports_only_real_events (chain : List Log) (lo hi : Nat) (contracts : List Addr) (wanted : List Hash) (fs : List Found)
    (h : identifyEvents chain lo hi contracts wanted = .ok fs) :
    (∀ f ∈ fs, f.sig ∈ wanted ∧ ∃ l ∈ chain, Relevant lo hi contracts wanted l ∧ parseLog l = .ok f) ∧ (fs.map Found.tx).Nodup := by
  constructor
  · intro f hf
    obtain ⟨hw, l, hl, hp⟩ := (mem_identify h f).1 hf
    have hm := List.mem_of_find?_eq_some hl
    rw [candidates_mem] at hm
    exact ⟨hw, l, hm.1, hm.2, hp⟩
  · obtain ⟨gs, hg, rfl⟩ := identify_ok h
    exact List.Nodup.sublist (List.Sublist.map _ (List.filter_sublist)) (collect_nodup hg (by simp))

/-- **C71 (partial).** If every relevant log of the range can be parsed, the author's report succeeds, and it contains every wanted
bridge event which is the only relevant one of its transaction. Missing for the full claim: several events in one transaction,
and progress when some log cannot be parsed (see `C71_full_claim_false`). -/
theorem C71_wanted_events_reported_partial (chain : List Log) (lo hi : Nat) (contracts : List Addr) (wanted : List Hash)
    (hparse : ∀ l ∈ chain, Relevant lo hi contracts wanted l → l.txHash ≠ none → ∃ f, parseLog l = .ok f) :
    ∃ fs, identifyEvents chain lo hi contracts wanted = .ok fs ∧
      ∀ l ∈ chain, Relevant lo hi contracts wanted l → ∀ f, parseLog l = .ok f → f.sig ∈ wanted →
        (∀ l' ∈ chain, Relevant lo hi contracts wanted l' → l'.txHash = l.txHash → l' = l) → f ∈ fs := by
  obtain ⟨gs, hg⟩ := @collect_ok [] (candidates chain lo hi contracts wanted) (by
    intro l hl; rw [candidates_mem] at hl; exact hparse l hl.1 hl.2)
  have hid : identifyEvents chain lo hi contracts wanted = .ok (gs.filter fun f => wanted.contains f.sig) := by
    rw [identify_eq, hg]
  refine ⟨_, hid, ?_⟩
  intro l hl hr f hf hw hone
  rw [mem_identify hid]
  refine ⟨hw, l, ?_, hf⟩
  have htx := (parseLog_ok hf).1
  cases hfl : firstLog (candidates chain lo hi contracts wanted) f.tx with
  | none =>
    have := List.find?_eq_none.1 hfl l (candidates_mem.2 ⟨hl, hr⟩)
    simp [htx] at this
  | some l' =>
    have h1 := List.mem_of_find?_eq_some hfl
    have h2 := List.find?_some hfl
    rw [candidates_mem] at h1
    rw [hone l' h1.1 h1.2 (by rw [htx]; simpa using h2)]

/-- **C71, precedence.** A direct transfer is never reported for a transaction in which the bridge itself emitted an event in the
range, so a lift is not credited a second time through the token's own `Transfer` log. -/
theorem C71_bridge_event_overrides_transfer (chain : List Log) (lo hi : Nat) (contracts : List Addr) (wanted : List Hash) (fs : List Found)
    (h : identifyEvents chain lo hi contracts wanted = .ok fs) (l : Log) (hl : l ∈ chain) (hr : InBlocks lo hi l)
    (hb : BridgeLog contracts l) (f : Found) (hf : f ∈ fs) (htx : l.txHash = some f.tx) :
    ∃ l' ∈ chain, BridgeLog contracts l' ∧ parseLog l' = .ok f := by
  obtain ⟨_, l', hl', hp⟩ := (mem_identify h f).1 hf
  unfold firstLog candidates at hl'
  rw [List.find?_append] at hl'
  cases hfl : (primaryLogs chain lo hi contracts (values.filter isPrimary)).find? fun l => l.txHash == some f.tx with
  | none =>
    have := List.find?_eq_none.1 hfl l (primaryLogs_mem.2 ⟨hl, hr, hb⟩)
    simp [htx] at this
  | some l2 =>
    rw [hfl] at hl'
    cases hl'
    have := primaryLogs_mem.1 (List.mem_of_find?_eq_some hfl)
    exact ⟨l', this.1, this.2.2, hp⟩

/-- **C71, one bad log blocks the range.** If some transaction's first relevant log cannot be parsed, the author reports nothing at
all for the range. -/
theorem C71_unparsable_log_blocks_range (chain : List Log) (lo hi : Nat) (contracts : List Addr) (wanted : List Hash) (l : Log) (e : AppError)
    (tx : Hash) (hfirst : firstLog (candidates chain lo hi contracts wanted) tx = some l) (hp : parseLog l = .error e) :
    ∃ e', identifyEvents chain lo hi contracts wanted = .error e' := by
  have key : ∀ (ls : List Log) (acc : List Found), (∀ a ∈ acc, a.tx ≠ tx) → firstLog ls tx = some l → ∃ e', collect acc ls = .error e' := by
    intro ls
    induction ls with
    | nil => intro acc _ h; cases h
    | cons x xs ih =>
      intro acc ha hf
      rw [collect]
      cases htx : x.txHash with
      | none => exact ih acc ha (by simpa [firstLog, htx] using hf)
      | some t =>
        dsimp only
        by_cases ht : t = tx
        · subst ht
          have hxl : x = l := by simpa [firstLog, htx] using hf
          subst hxl
          have hno : ¬ (acc.any fun f => f.tx == t) = true := by
            rw [List.any_eq_true]; rintro ⟨a, h1, h2⟩; exact ha a h1 (by simpa using h2)
          rw [if_neg hno, hp]
          exact ⟨e, rfl⟩
        · have hf' : firstLog xs tx = some l := by simpa [firstLog, htx, ht] using hf
          split
          · exact ih acc ha hf'
          · split
            · rename_i f hpf
              refine ih _ ?_ hf'
              intro a hm
              rcases List.mem_append.1 hm with hm | hm
              · exact ha a hm
              · have hfe : a = f := by simpa using hm
                subst hfe
                have := (parseLog_ok hpf).1
                rw [htx] at this; cases this; exact ht
            · exact ⟨_, rfl⟩
  obtain ⟨e', he⟩ := key _ [] (by simp) hfirst
  exact ⟨e', by rw [identify_eq, he]⟩

/-! ### Counterexamples to the full claim of C71, and an instance of the partial one -/

/-- The signature of a kind as 32 bytes. -/
def sigHash (k : ValidEvent) : Hash := Vector.ofFn fun i => UInt8.ofNat (signature k / 256 ^ (31 - i.val))

def exBridge : Addr := Vector.replicate 20 9
def exTx : Hash := Vector.replicate 32 1
def exTx2 : Hash := Vector.replicate 32 2

/-- A lift of `n` (at most 255) units of token 3 to account 4 in transaction `tx`, block 100. -/
def exLiftLog (tx : Hash) (n : UInt8) : Log :=
  { address := exBridge, topics := [sigHash .lifted, Vector.replicate 32 3, Vector.replicate 32 4]
    data := List.replicate 31 0 ++ [n], txHash := some tx, block := some 100 }

/-- A lift log with one topic missing. -/
def exBadLog (tx : Hash) : Log := { exLiftLog tx 5 with topics := [sigHash .lifted, Vector.replicate 32 3] }

/-- What a lift log is reported as. -/
def exFound (tx : Hash) (n : UInt8) : Found :=
  { sig := sigHash .lifted, tx := tx, block := 100
    data := .lifted ⟨Vector.replicate 20 3, Vector.replicate 20 0, Vector.replicate 32 4, Fin.ofNat _ n.toNat, 0⟩ }

/-- Two lifts in different transactions: both reported (instance of the partial claim). -/
example : identifyEvents [exLiftLog exTx 5, exLiftLog exTx2 6] 90 110 [exBridge] [sigHash .lifted] =
    .ok [exFound exTx 5, exFound exTx2 6] := by decide +kernel

/-- The full claim: every wanted, parsable bridge event of the range is reported. -/
def FullClaim : Prop :=
  ∀ (chain : List Log) (lo hi : Nat) (contracts : List Addr) (wanted : List Hash) (l : Log) (f : Found),
    l ∈ chain → InBlocks lo hi l → BridgeLog contracts l → parseLog l = .ok f → f.sig ∈ wanted →
    ∃ fs, identifyEvents chain lo hi contracts wanted = .ok fs ∧ f ∈ fs

theorem exLiftLog_relevant (tx : Hash) (n : UInt8) : InBlocks 90 110 (exLiftLog tx n) ∧ BridgeLog [exBridge] (exLiftLog tx n) :=
  ⟨⟨100, rfl, by omega, by omega⟩, by simp [exLiftLog],
    .lifted, rfl, sigHash .lifted, _, rfl, by decide +kernel⟩

/-- The full claim is false of the code, for two reasons. A second lift in the same transaction is never reported, and one
malformed log of the bridge hides every other event of the range. -/
theorem C71_full_claim_false : ¬ FullClaim ∧
    identifyEvents [exLiftLog exTx 5, exLiftLog exTx 6] 90 110 [exBridge] [sigHash .lifted] = .ok [exFound exTx 5] ∧
    identifyEvents [exLiftLog exTx 5, exBadLog exTx2] 90 110 [exBridge] [sigHash .lifted] = .error .parsing := by
  have h1 : identifyEvents [exLiftLog exTx 5, exLiftLog exTx 6] 90 110 [exBridge] [sigHash .lifted] = .ok [exFound exTx 5] := by
    decide +kernel
  refine ⟨?_, h1, by decide +kernel⟩
  intro h
  obtain ⟨hb, hr⟩ := exLiftLog_relevant exTx 6
  obtain ⟨fs, hfs, hm⟩ := h [exLiftLog exTx 5, exLiftLog exTx 6] 90 110 [exBridge] [sigHash .lifted] (exLiftLog exTx 6) (exFound exTx 6)
    (by simp) hb hr (by decide +kernel) (by decide +kernel)
  rw [h1] at hfs
  cases hfs
  revert hm
  decide +kernel

/-! ## C74: honest authors agree -/

/-- All logs of a transaction are in the same block. -/
def TxInOneBlock (chain : List Log) : Prop :=
  ∀ l ∈ chain, ∀ l' ∈ chain, ∀ tx, l.txHash = some tx → l'.txHash = some tx → l.block = l'.block

theorem hashNat_inj {a b : Hash} (h : hashNat a = hashNat b) : a = b := by
  unfold hashNat beVal at h
  have ha := leBytes_leVal a.toList.reverse
  have hb := leBytes_leVal b.toList.reverse
  rw [h] at ha
  have hl : a.toList.reverse.length = b.toList.reverse.length := by simp
  rw [hl, hb] at ha
  exact Vector.toList_inj.mp (List.reverse_injective ha.symm)

theorem find_filter {α : Type} (l : List α) (p q : α → Bool) : (l.filter p).find? q = l.find? fun a => p a && q a := by
  induction l with
  | nil => rfl
  | cons x l ih => by_cases h : p x = true <;> simp [List.filter_cons, List.find?_cons, h, ih]

theorem find_congr {α : Type} {l : List α} {p q : α → Bool} (h : ∀ a ∈ l, p a = q a) : l.find? p = l.find? q := by
  induction l with
  | nil => rfl
  | cons x l ih => rw [List.find?_cons, List.find?_cons, h x (by simp), ih fun a ha => h a (by simp [ha])]

/-- Both discovery rounds see the same first log of a transaction. -/
theorem first_same {chain : List Log} (hc : TxInOneBlock chain) {lo hi lo' hi' : Nat} {contracts : List Addr} {wanted : List Hash}
    {tx : Hash} {b : Nat} {l0 : Log} (h0 : l0 ∈ chain) (h0t : l0.txHash = some tx) (h0b : l0.block = some b)
    (h1 : lo ≤ b ∧ b ≤ hi) (h2 : lo' ≤ b ∧ b ≤ hi') :
    firstLog (candidates chain lo hi contracts wanted) tx = firstLog (candidates chain lo' hi' contracts wanted) tx := by
  have hin : ∀ l ∈ chain, l.txHash = some tx → inRange lo hi l = inRange lo' hi' l := by
    intro l hl ht
    have hb : l.block = some b := by rw [← h0b]; exact hc l hl l0 h0 tx ht h0t
    unfold inRange; rw [hb]; simp [h1, h2]
  have congr : ∀ (g : Log → Bool), (chain.find? fun l => inRange lo hi l && g l && (l.txHash == some tx)) =
      chain.find? fun l => inRange lo' hi' l && g l && (l.txHash == some tx) := by
    intro g
    apply find_congr
    intro l hl
    by_cases ht : l.txHash = some tx
    · rw [hin l hl ht]
    · have : (l.txHash == some tx) = false := by simpa using ht
      rw [this, Bool.and_false, Bool.and_false]
  unfold firstLog candidates
  rw [List.find?_append, List.find?_append]
  congr 1
  · unfold primaryLogs
    rw [find_filter, find_filter]
    have := congr fun l => topic0In (values.filter isPrimary) l && contracts.contains l.address
    simpa only [Bool.and_assoc] using this
  · split
    · unfold secondaryLogs
      rw [find_filter, find_filter]
      have := congr fun l => topic0In (values.filter fun k => !isPrimary k) l && toBridge contracts l
      simpa only [Bool.and_assoc] using this
    · rfl

/-- The events of the discovery rounds: of a block range, wanted ones. -/
def Seen (chain : List Log) (contracts : List Addr) (wanted : List Hash) (f : Found) : Prop :=
  ∃ lo hi fs, identifyEvents chain lo hi contracts wanted = .ok fs ∧ f ∈ fs

theorem seen_unique {chain : List Log} (hc : TxInOneBlock chain) {contracts : List Addr} {wanted : List Hash} {f g : Found}
    (hf : Seen chain contracts wanted f) (hg : Seen chain contracts wanted g) (hb : f.block = g.block) (ht : f.tx = g.tx) : f = g := by
  obtain ⟨lo, hi, fs, h1, h2⟩ := hf
  obtain ⟨lo', hi', gs, h3, h4⟩ := hg
  obtain ⟨_, l, hl, hp⟩ := (mem_identify h1 f).1 h2
  obtain ⟨_, l', hl', hp'⟩ := (mem_identify h3 g).1 h4
  obtain ⟨hm, ⟨b, hbl, hlo, hhi⟩, -⟩ := candidates_mem.1 (List.mem_of_find?_eq_some hl)
  obtain ⟨hm', ⟨b', hbl', hlo', hhi'⟩, -⟩ := candidates_mem.1 (List.mem_of_find?_eq_some hl')
  have hb' : b = b' := by
    have e1 := (parseLog_ok hp).2.2
    have e2 := (parseLog_ok hp').2.2
    rw [hbl] at e1; rw [hbl'] at e2; cases e1; cases e2; exact hb
  subst hb'
  have := first_same (wanted := wanted) (contracts := contracts) hc hm (parseLog_ok hp).1 hbl ⟨hlo, hhi⟩ ⟨hlo', hhi'⟩
  rw [← ht, ← this, hl] at hl'
  cases hl'
  rw [hp] at hp'
  cases hp'
  rfl

theorem additional_seen {chain : List Log} {receipt : Hash → Option Nat} {contracts : List Addr} {wanted : List Hash} {ts : List Hash}
    {fs : List Found} (h : identifyAdditional chain receipt contracts wanted ts = .ok fs) : ∀ f ∈ fs, Seen chain contracts wanted f := by
  induction ts generalizing fs with
  | nil => cases h; simp
  | cons t ts ih =>
    unfold identifyAdditional at h
    split at h
    · exact ih h
    · rename_i b _
      split at h
      · rename_i f1 f2 h1 h2
        cases h
        intro f hf
        rcases List.mem_append.1 hf with hf | hf
        · exact ⟨b, b, f1, h1, hf⟩
        · exact ih h2 f hf
      · cases h
      · cases h

theorem sortD_congr {l l' : List EthBridge.Discovered} (hp : l.Perm l')
    (hu : ∀ a ∈ l, ∀ b ∈ l, a.block = b.block → a.event.txHash = b.event.txHash → a = b) : EthBridge.sortD l = EthBridge.sortD l' := by
  have p : (EthBridge.sortD l).Perm (EthBridge.sortD l') := (EthBridge.sortD_perm l).trans (hp.trans (EthBridge.sortD_perm l').symm)
  refine p.eq_of_pairwise ?_ (EthBridge.sortD_sorted l) (EthBridge.sortD_sorted l')
  intro a b ha hb h1 h2
  have ha' := (EthBridge.sortD_perm l).mem_iff.1 ha
  have hb' := hp.mem_iff.2 ((EthBridge.sortD_perm l').mem_iff.1 hb)
  unfold EthBridge.leD at h1 h2
  simp only [Bool.or_eq_true, decide_eq_true_eq, Bool.and_eq_true, beq_iff_eq] at h1 h2
  exact hu a ha' b hb' (by omega) (by omega)

/-- **C74.** Two authors with the same view of Ethereum vote for the same partition, whatever the iteration order of their hash
maps (`order`, `order'`: arbitrary rearrangements), for every range, partition number, filter and set of additional
transactions; so their votes can add up. -/
theorem C74_honest_authors_agree (code : EventData → Nat) (order order' : List Found → List Found) (ho : ∀ l, (order l).Perm l)
    (ho' : ∀ l, (order' l).Perm l) (chain : List Log) (hc : TxInOneBlock chain) (receipt : Hash → Option Nat) (contracts : List Addr)
    (wanted additional : List Hash) (range : EthBridge.Range) (partition : Nat) :
    partitionToVote code order chain receipt contracts wanted additional range partition =
      partitionToVote code order' chain receipt contracts wanted additional range partition := by
  unfold partitionToVote
  split
  · rename_i fs gs h1 h2
    have hs : ∀ f ∈ fs ++ gs, Seen chain contracts wanted f := by
      intro f hf
      rcases List.mem_append.1 hf with hf | hf
      · exact additional_seen h1 f hf
      · exact ⟨_, _, gs, h2, hf⟩
    have hperm : ((order (fs ++ gs)).map (toDiscovered code)).Perm ((order' (fs ++ gs)).map (toDiscovered code)) :=
      ((ho _).trans (ho' _).symm).map _
    have : EthBridge.sortD ((order (fs ++ gs)).map (toDiscovered code)) = EthBridge.sortD ((order' (fs ++ gs)).map (toDiscovered code)) := by
      apply sortD_congr hperm
      intro a ha b hb hblk htx
      obtain ⟨f, hf, rfl⟩ := List.mem_map.1 ha
      obtain ⟨g, hg, rfl⟩ := List.mem_map.1 hb
      have hf' := hs f ((ho _).mem_iff.1 hf)
      have hg' := hs g ((ho _).mem_iff.1 hg)
      rw [seen_unique hc hf' hg' hblk (hashNat_inj htx)]
    unfold EthBridge.createPartitions
    rw [this]
  · rfl

/-- **C74, the vote is about the reported events.** The partition an author votes for carries the requested range and number, and
contains only events it found. -/
theorem C74_vote_is_what_was_found (code : EventData → Nat) (order : List Found → List Found) (ho : ∀ l, (order l).Perm l)
    (chain : List Log) (receipt : Hash → Option Nat) (contracts : List Addr) (wanted additional : List Hash) (range : EthBridge.Range)
    (partition : Nat) (p : EthBridge.Partition)
    (h : partitionToVote code order chain receipt contracts wanted additional range partition = some p) :
    p.range = range ∧ p.number = partition ∧ ∀ d ∈ p.events, ∃ f, d = toDiscovered code f ∧ f.sig ∈ wanted ∧
      ∃ l ∈ chain, parseLog l = .ok f := by
  unfold partitionToVote at h
  split at h
  · rename_i fs gs h1 h2
    have hmem := List.mem_of_find?_eq_some h
    have hnum := List.find?_some h
    obtain ⟨i, hi, hget⟩ := List.getElem_of_mem hmem
    have hshape := (EthBridge.C16_partition_shape range ((order (fs ++ gs)).map (toDiscovered code))).2 i p
      (by rw [List.getElem?_eq_getElem hi, hget])
    refine ⟨hshape.1, by simpa using hnum, ?_⟩
    intro d hd
    have hin := (EthBridge.C16_no_event_lost range ((order (fs ++ gs)).map (toDiscovered code)) d).1 ⟨p, hmem, hd⟩
    obtain ⟨f, hf, rfl⟩ := List.mem_map.1 hin
    have hs : Seen chain contracts wanted f := by
      rcases List.mem_append.1 ((ho _).mem_iff.1 hf) with hf | hf
      · exact additional_seen h1 f hf
      · exact ⟨_, _, gs, h2, hf⟩
    obtain ⟨lo, hi, fs', h3, h4⟩ := hs
    obtain ⟨h5, l, h6, -, h7⟩ := (C71_reports_only_real_events chain lo hi contracts wanted fs' h3).1 f h4
    exact ⟨f, rfl, h5, l, h6, h7⟩
  · cases h

/-- Two orders of two events in one block, with the block also asked for as an additional transaction: same partition. -/
example :
    partitionToVote (fun _ => 0) id [exLiftLog exTx2 5, exLiftLog exTx 6] (fun _ => some 100) [exBridge] [sigHash .lifted] [exTx]
      ⟨90, 20⟩ 0 =
    partitionToVote (fun _ => 0) List.reverse [exLiftLog exTx2 5, exLiftLog exTx 6] (fun _ => some 100) [exBridge] [sigHash .lifted]
      [exTx] ⟨90, 20⟩ 0 ∧
    ((partitionToVote (fun _ => 0) id [exLiftLog exTx2 5, exLiftLog exTx 6] (fun _ => some 100) [exBridge] [sigHash .lifted] [exTx]
      ⟨90, 20⟩ 0).map fun p => p.events.length) = some 2 := by
  constructor <;> decide +kernel

end Verif.EventsClient
