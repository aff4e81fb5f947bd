import Verif.Lemmas.EventCheck
import Verif.Props.EventParsing

/-!
# C91: what a validator reports about an Ethereum event

The verdict of the off-chain worker, stated on the receipt of the transaction rather than on JSON: the service renders the receipt,
the worker reads it back. `readJson` is the JSON reader; all that is assumed of it is that it reads this receipt's text.
-/

namespace Verif.EventCheck

open Verif Verif.Events
open Verif.EthEvents (EventId CheckResult)
open Verif.Parsing (EventData)

/-- The contract that may emit the event: a registered NFT contract for NFT events, the bridge contract for the others. -/
def Recognised (c : Cfg) (addr : List UInt8) (id : EventId) : Prop :=
  ∃ k, signature k = id.signature ∧ (if isNft k then addr ∈ c.nftContracts else addr = c.bridge)

/-- The log holds an event of the announced kind with these values (`Parsing.parse`, whose meaning is C27). -/
def Holds (id : EventId) (l : EthLog) (d : EventData) : Prop :=
  ∃ k, signature k = id.signature ∧ k ≠ .erc20DirectTransfer ∧
    Parsing.parse k (if l.data = [] then none else some l.data) l.topics = .ok d

/-- The first log of the announced event is this one, and every log before it has some other first topic. -/
def FirstLog (r : Receipt) (id : EventId) (l : EthLog) : Prop :=
  ∃ pre post, r.logs = pre ++ l :: post ∧ (∃ t ts, l.topics = t :: ts ∧ beVal t = id.signature) ∧
    ∀ x ∈ pre, ∃ t ts, x.topics = t :: ts ∧ beVal t ≠ id.signature

/-- A log without any topic stands before every log of the announced event. -/
def AnonymousFirst (r : Receipt) (id : EventId) : Prop :=
  ∃ pre l post, r.logs = pre ++ l :: post ∧ l.topics = [] ∧ ∀ x ∈ pre, ∃ t ts, x.topics = t :: ts ∧ beVal t ≠ id.signature

/-- The node asked its service about the event's transaction and got this receipt, in a state of Ethereum with this latest block. -/
structure Answer (readJson : List UInt8 → Option Json) (body : List UInt8) (r : Receipt) (current : Nat) : Prop where
  wf : r.WellFormed
  status : ∀ n, r.status = some n → n < 2
  ex : ∃ text j, body = serviceAnswer text current r.block ∧ text.length + 5 < pow32 ∧ readJson text = some j ∧ IsReceipt j r

theorem tryFrom_iff (sig : Nat) (k : ValidEvent) : tryFrom sig = some k ↔ signature k = sig := by
  constructor
  · intro h
    have := List.find?_some h
    simpa using this
  · rintro rfl; exact (Parsing.C27_signatures_determine_kind k k).2.1

theorem contractValid_iff (c : Cfg) (addr : List UInt8) (id : EventId) : contractValid c addr id = true ↔ Recognised c addr id := by
  unfold contractValid Recognised
  cases h : tryFrom id.signature with
  | none =>
    simp only [Bool.false_eq_true, false_iff, not_exists]
    rintro k ⟨hk, -⟩
    rw [(tryFrom_iff _ k).2 hk] at h; cases h
  | some k =>
    have hk := (tryFrom_iff _ k).1 h
    constructor
    · intro hv
      refine ⟨k, hk, ?_⟩
      dsimp only at hv
      by_cases hn : isNft k = true
      · rw [if_pos hn] at hv ⊢; simpa using hv
      · rw [if_neg hn] at hv ⊢; have : c.bridge = addr := by simpa using hv
        exact this.symm
    · rintro ⟨k', hk', hv⟩
      have : k' = k := ((Parsing.C27_signatures_determine_kind k' k).1).1 (hk'.trans hk.symm)
      subst this
      dsimp only
      by_cases hn : isNft k' = true
      · rw [if_pos hn] at hv ⊢; simpa using hv
      · rw [if_neg hn] at hv ⊢; simp [hv]

theorem parse_no_panic (k : ValidEvent) (data : Option (List UInt8)) (topics : List (List UInt8))
    (hw : ∀ t ∈ topics, t.length = 32) : Parsing.parse k data topics ≠ .panic := by
  intro hp
  by_cases hk : k = .nftCancelListing
  · subst hk
    by_cases h3 : topics.length = 3
    · have h2 : (Parsing.topic topics 2).length = 32 := by
        unfold Parsing.topic
        have hlt : 2 < topics.length := by omega
        have hg : topics.getD 2 [] = topics[2] := by simp [List.getD, List.getElem?_eq_getElem hlt]
        rw [hg]
        exact hw _ (List.getElem_mem _)
      cases data with
      | some d => simp [Parsing.parse, Parsing.parseNftCancelListing, Parsing.Res.map] at hp
      | none =>
        simp only [Parsing.parse, Parsing.parseNftCancelListing, h3, h2] at hp
        split_ifs at hp <;> simp_all [Parsing.Res.map]
    · cases data <;> simp [Parsing.parse, Parsing.parseNftCancelListing, h3, Parsing.Res.map] at hp
  · cases k <;> first | exact absurd rfl hk | skip
    all_goals
      cases data <;>
      simp only [Parsing.parse, Parsing.parseAddedValidator, Parsing.parseLifted, Parsing.parseErc20, Parsing.parseNftMint,
        Parsing.parseNftTransferTo, Parsing.parseNftEndBatchListing, Parsing.parseAvtGrowthLifted, Parsing.parseAvtLowerClaimed,
        Parsing.parseLowerReverted] at hp
    all_goals
      (try split_ifs at hp) <;> simp [Parsing.Res.map] at hp

theorem parseTier1_ok (id : EventId) (l : EthLog) (d : EventData) :
    parseTier1 id (if l.data = [] then none else some l.data) l.topics = .ok d ↔ Holds id l d := by
  unfold parseTier1 Holds
  cases h : tryFrom id.signature with
  | none =>
    constructor
    · intro h'; cases h'
    · rintro ⟨k, hk, -⟩
      rw [(tryFrom_iff _ k).2 hk] at h; cases h
  | some k =>
    have hk := (tryFrom_iff _ k).1 h
    constructor
    · intro hv
      refine ⟨k, hk, ?_, ?_⟩
      · rintro rfl; cases hv
      · cases k <;> first | cases hv | skip
        all_goals
          dsimp only at hv
          split at hv
          · rename_i d' hd; injection hv with hv; subst hv; exact hd
          · cases hv
          · cases hv
    · rintro ⟨k', hk', hne, hv⟩
      have : k' = k := ((Parsing.C27_signatures_determine_kind k' k).1).1 (hk'.trans hk.symm)
      subst this
      cases k' <;> first | exact absurd rfl hne | skip
      all_goals dsimp only; rw [hv]

theorem parseTier1_no_panic (id : EventId) (l : EthLog) (hw : ∀ t ∈ l.topics, t.length = 32) :
    parseTier1 id (if l.data = [] then none else some l.data) l.topics ≠ .panic := by
  unfold parseTier1
  cases h : tryFrom id.signature with
  | none => intro h'; cases h'
  | some k =>
    have hp := parse_no_panic k (if l.data = [] then none else some l.data) l.topics hw
    cases k <;> dsimp only
    all_goals first | (intro h'; cases h') | skip
    all_goals
      split
      · intro h'; cases h'
      · intro h'; cases h'
      · rename_i he; exact absurd he hp

/-- Everything the worker can say about a receipt. -/
theorem verdict_cases {readJson : List UInt8 → Option Json} {body : List UInt8} {r : Receipt} {current : Nat}
    (a : Answer readJson body r current) (c : Cfg) (id : EventId) :
    (r.status ≠ some 1 ∧ computeResult readJson c (some body) id = .ok ⟨.invalid, none⟩) ∨
    r.status = some 1 ∧
      ((AnonymousFirst r id ∧ computeResult readJson c (some body) id = .panic) ∨
       ((∀ l, ¬ FirstLog r id l) ∧ ¬ AnonymousFirst r id ∧ computeResult readJson c (some body) id = .ok ⟨.invalid, none⟩) ∨
       ∃ l, FirstLog r id l ∧
        ((¬ (Recognised c l.address id ∧ ∃ d, Holds id l d) ∧ computeResult readJson c (some body) id = .ok ⟨.invalid, none⟩) ∨
         ∃ d, Recognised c l.address id ∧ Holds id l d ∧
          ((confirmations current r.block < c.minConfs ∧
              computeResult readJson c (some body) id = .ok ⟨.insufficientConfirmations, none⟩) ∨
           (c.minConfs ≤ confirmations current r.block ∧ computeResult readJson c (some body) id = .ok ⟨.ok, some d⟩)))) := by
  obtain ⟨text, j, rfl, hlen, hread, hrec⟩ := a.ex
  obtain ⟨o, ls, rfl, hst, hlogs, hf⟩ := hrec
  have hrec : IsReceipt (.obj o) r := ⟨o, ls, rfl, hst, hlogs, hf⟩
  have hcr : computeResult readJson c (some (serviceAnswer text current r.block)) id = judge c o (confirmations current r.block) id := by
    unfold computeResult
    dsimp only
    rw [parseResponse_service readJson text o current r.block hlen hread]
  rw [hcr]
  have hne : o.isEmpty = false := by
    obtain ⟨x, y, rfl, -⟩ := hst; simp
  unfold judge
  rw [if_neg (by rw [hne]; simp)]
  have hs := getStatus_receipt hrec a.status
  by_cases h1 : r.status = some 1
  · rw [if_neg (by rw [Decidable.not_not]; exact hs.2 h1)]
    refine .inr ⟨h1, ?_⟩
    rcases findEvent_receipt hrec a.wf id.signature with ⟨h2, h3⟩ | ⟨h2, h3⟩ | ⟨l, hl, h3, h2⟩
    · rw [h2]; exact .inl ⟨(search_panic_iff _ _).1 h3, rfl⟩
    · rw [h2]
      refine .inr (.inl ⟨?_, ?_, rfl⟩)
      · intro l hfl
        have := h3.det ((search_found_iff _ _ l).2 hfl)
        cases this
      · intro hfl
        have := h3.det ((search_panic_iff _ _).2 hfl)
        cases this
    · rw [h2]
      refine .inr (.inr ⟨l, (search_found_iff _ _ l).1 h3, ?_⟩)
      dsimp only
      by_cases hv : contractValid c l.address id = true
      · rw [if_neg (by rw [hv]; simp)]
        cases hp : parseTier1 id (if l.data = [] then none else some l.data) l.topics with
        | panic => exact absurd hp (parseTier1_no_panic id l (a.wf l hl).2.2)
        | err =>
          refine .inl ⟨?_, rfl⟩
          rintro ⟨-, d, hd⟩
          rw [(parseTier1_ok id l d).2 hd] at hp; cases hp
        | ok d =>
          refine .inr ⟨d, (contractValid_iff _ _ _).1 hv, (parseTier1_ok id l d).1 hp, ?_⟩
          dsimp only
          by_cases hcf : confirmations current r.block < c.minConfs
          · rw [if_pos hcf]; exact .inl ⟨hcf, rfl⟩
          · rw [if_neg hcf]; exact .inr ⟨by omega, rfl⟩
      · rw [if_pos (by simpa using hv)]
        refine .inl ⟨?_, rfl⟩
        rintro ⟨hr, -⟩
        exact hv ((contractValid_iff _ _ _).2 hr)
  · rw [if_pos (fun h => h1 (hs.1 h))]
    exact .inl ⟨h1, rfl⟩

theorem FirstLog.unique {r : Receipt} {id : EventId} {l l' : EthLog} (h : FirstLog r id l) (h' : FirstLog r id l') : l = l' := by
  have := ((search_found_iff id.signature r.logs l).2 h).det ((search_found_iff id.signature r.logs l').2 h')
  injection this with this; injection this

theorem FirstLog.not_anonymous {r : Receipt} {id : EventId} {l : EthLog} (h : FirstLog r id l) : ¬ AnonymousFirst r id := by
  intro h'
  have := ((search_found_iff id.signature r.logs l).2 h).det ((search_panic_iff id.signature r.logs).2 h')
  cases this

theorem Holds.unique {id : EventId} {l : EthLog} {d d' : EventData} (h : Holds id l d) (h' : Holds id l d') : d = d' := by
  have h1 := (parseTier1_ok id l d).2 h
  rw [(parseTier1_ok id l d').2 h'] at h1
  injection h1 with h1; exact h1.symm

/-- **C91, what `Ok` means.** The worker calls the event genuine, with the data `d`, exactly when the transaction succeeded, the
first log of that event comes from the recognised contract and holds `d`, and the service counts enough confirmations. -/
theorem C91_ok_iff {readJson : List UInt8 → Option Json} {body : List UInt8} {r : Receipt} {current : Nat}
    (a : Answer readJson body r current) (c : Cfg) (id : EventId) (d : Option EventData) :
    computeResult readJson c (some body) id = .ok ⟨.ok, d⟩ ↔
      r.status = some 1 ∧ (∃ l e, FirstLog r id l ∧ Recognised c l.address id ∧ Holds id l e ∧ d = some e) ∧
        c.minConfs ≤ confirmations current r.block := by
  rcases verdict_cases a c id with ⟨h1, h2⟩ | ⟨h1, ⟨h2, h3⟩ | ⟨h2, h3, h4⟩ | ⟨l, hl, ⟨h2, h3⟩ | ⟨e, hr, hh, ⟨h2, h3⟩ | ⟨h2, h3⟩⟩⟩⟩
  · rw [h2]; constructor
    · intro h; simp at h
    · rintro ⟨h, -⟩; exact absurd h h1
  · rw [h3]; constructor
    · intro h; cases h
    · rintro ⟨-, ⟨l, e, hfl, -⟩, -⟩; exact absurd h2 hfl.not_anonymous
  · rw [h4]; constructor
    · intro h; simp at h
    · rintro ⟨-, ⟨l, e, hfl, -⟩, -⟩; exact absurd hfl (h2 l)
  · rw [h3]; constructor
    · intro h; simp at h
    · rintro ⟨-, ⟨l', e, hfl, hr, hh, -⟩, -⟩
      have := hfl.unique hl; subst this
      exact absurd ⟨hr, e, hh⟩ h2
  · rw [h3]; constructor
    · intro h; simp at h
    · rintro ⟨-, -, hc⟩; omega
  · rw [h3]; constructor
    · intro h
      simp only [Out.ok.injEq, Verdict.mk.injEq, true_and] at h
      exact ⟨h1, ⟨l, e, hl, hr, hh, h.symm⟩, h2⟩
    · rintro ⟨-, ⟨l', e', hfl, -, hh', rfl⟩, -⟩
      have := hfl.unique hl; subst this
      rw [hh.unique hh']

/-- **C91, what `Invalid` means.** The worker calls the event invalid exactly when the transaction failed, or it has no log of the
event (and no log without topics), or the first one is not from the recognised contract or cannot be read. -/
theorem C91_invalid_iff {readJson : List UInt8 → Option Json} {body : List UInt8} {r : Receipt} {current : Nat}
    (a : Answer readJson body r current) (c : Cfg) (id : EventId) (d : Option EventData) :
    computeResult readJson c (some body) id = .ok ⟨.invalid, d⟩ ↔
      d = none ∧ (r.status ≠ some 1 ∨ ((∀ l, ¬ FirstLog r id l) ∧ ¬ AnonymousFirst r id) ∨
        ∃ l, FirstLog r id l ∧ ¬ (Recognised c l.address id ∧ ∃ e, Holds id l e)) := by
  rcases verdict_cases a c id with ⟨h1, h2⟩ | ⟨h1, ⟨h2, h3⟩ | ⟨h2, h3, h4⟩ | ⟨l, hl, ⟨h2, h3⟩ | ⟨e, hr, hh, ⟨h2, h3⟩ | ⟨h2, h3⟩⟩⟩⟩
  · rw [h2]; simp [h1, eq_comm]
  · rw [h3]; constructor
    · intro h; cases h
    · rintro ⟨-, h | ⟨-, h⟩ | ⟨l, hl, -⟩⟩
      · exact absurd h1 h
      · exact absurd h2 h
      · exact absurd h2 hl.not_anonymous
  · rw [h4]; simp only [Out.ok.injEq, Verdict.mk.injEq, true_and]
    exact ⟨fun h => ⟨h.symm, .inr (.inl ⟨h2, h3⟩)⟩, fun h => h.1.symm⟩
  · rw [h3]; simp only [Out.ok.injEq, Verdict.mk.injEq, true_and]
    exact ⟨fun h => ⟨h.symm, .inr (.inr ⟨l, hl, h2⟩)⟩, fun h => h.1.symm⟩
  all_goals
    rw [h3]; constructor
    · intro h; simp at h
    · rintro ⟨-, h | ⟨h, -⟩ | ⟨l', hl', h⟩⟩
      · exact absurd h1 h
      · exact absurd hl (h l)
      · have := hl'.unique hl; subst this
        exact absurd ⟨hr, e, hh⟩ h

/-- **C91, the worker crashes exactly here.** On a receipt as Ethereum produces them, the worker panics if and only if the
transaction succeeded and a log without topics stands before every log of the event. -/
theorem C91_panics_iff {readJson : List UInt8 → Option Json} {body : List UInt8} {r : Receipt} {current : Nat}
    (a : Answer readJson body r current) (c : Cfg) (id : EventId) :
    computeResult readJson c (some body) id = .panic ↔ r.status = some 1 ∧ AnonymousFirst r id := by
  rcases verdict_cases a c id with ⟨h1, h2⟩ | ⟨h1, ⟨h2, h3⟩ | ⟨h2, h3, h4⟩ | ⟨l, hl, ⟨h2, h3⟩ | ⟨e, hr, hh, ⟨h2, h3⟩ | ⟨h2, h3⟩⟩⟩⟩
  · rw [h2]; simp [h1]
  · rw [h3]; simp [h1, h2]
  · rw [h4]; simp [h3]
  all_goals rw [h3]; simp [hl.not_anonymous]

/-- **C91, confirmations (partial).** When the receipt's block is not newer than the block number the service asked for first,
`Ok` means that at least `MinEthBlockConfirmation` blocks follow it. What is missing: the receipt is fetched after the block
number, see `C91_newer_block_counts_as_final`. -/
theorem C91_confirmations_partial {readJson : List UInt8 → Option Json} {body : List UInt8} {r : Receipt} {current : Nat}
    (a : Answer readJson body r current) (c : Cfg) (id : EventId) (d : Option EventData) (b : Nat) (hb : r.block = some b)
    (hcur : current < pow64) (hle : b ≤ current) (h : computeResult readJson c (some body) id = .ok ⟨.ok, d⟩) :
    b + c.minConfs ≤ current := by
  have := ((C91_ok_iff a c id d).1 h).2.2
  unfold confirmations at this
  rw [hb, Option.getD_some, show current + pow64 - b = (current - b) + pow64 by omega, Nat.add_mod_right,
    Nat.mod_eq_of_lt (by omega)] at this
  omega

/-- **C91, no answer, no verdict.** When the request fails, the worker says so; when the answer cannot be read (the service answers
with an empty string when it knows no such receipt), the event is invalid. -/
theorem C91_no_receipt (readJson : List UInt8 → Option Json) (c : Cfg) (id : EventId) :
    computeResult readJson c none id = .ok ⟨.httpErrorCheckingEvent, none⟩ ∧
      computeResult readJson c (some []) id = .ok ⟨.invalid, none⟩ := by
  refine ⟨rfl, ?_⟩
  have : parseResponse readJson [] = none := rfl
  unfold computeResult
  dsimp only
  rw [this]; rfl

/-! ### The two defects -/

/-- The NFT event of the examples: a batch listing ended. -/
def exId : EventId := ⟨signature .nftEndBatchListing, 77⟩
/-- The contract. -/
def exContract : List UInt8 := List.replicate 20 9
/-- Configuration of the production runtime. -/
def exCfg : Cfg := ⟨List.replicate 20 1, [exContract], 20⟩
/-- The log of the event. -/
def exLog : EthLog := ⟨exContract, [beBytes 32 (signature .nftEndBatchListing), beBytes 32 5], []⟩
/-- A log without topics (`LOG0`), by some other contract in the same transaction. -/
def exLog0 : EthLog := ⟨List.replicate 20 3, [], [1, 2]⟩
/-- JSON of a log. -/
def logJson (l : EthLog) : Json :=
  .obj [(ascii "address", .str (hex0x l.address)), (ascii "topics", .arr (l.topics.map fun t => .str (hex0x t))),
    (ascii "data", .str (hex0x l.data)), (ascii "removed", .other)]
/-- JSON of a receipt. -/
def receiptJson (r : Receipt) : Json :=
  .obj [(ascii "blockNumber", .other), (ascii "logs", .arr (r.logs.map logJson)), (ascii "status", statusJson r.status)]

theorem field_cons {o : Obj} {k k' : List UInt8} {v v' : Json} (h : k' ≠ k) (hf : Field o k v) : Field ((k', v') :: o) k v := by
  obtain ⟨a, b, rfl, ha⟩ := hf
  refine ⟨(k', v') :: a, b, rfl, ?_⟩
  intro kv hkv
  rcases List.mem_cons.1 hkv with rfl | hkv
  · exact h
  · exact ha kv hkv

theorem field_head {o : Obj} {k : List UInt8} {v : Json} : Field ((k, v) :: o) k v := ⟨[], o, rfl, by simp⟩

theorem logJson_isLog (l : EthLog) : IsLog (logJson l) l :=
  ⟨_, rfl, field_head, field_cons (by decide) field_head, field_cons (by decide) (field_cons (by decide) field_head)⟩

theorem receiptJson_isReceipt (r : Receipt) : IsReceipt (receiptJson r) r := by
  refine ⟨_, r.logs.map logJson, rfl, field_cons (by decide) (field_cons (by decide) field_head), field_cons (by decide) field_head, ?_⟩
  rw [List.forall₂_map_left_iff]
  exact List.forall₂_same.2 fun l _ => logJson_isLog l

/-- Any receipt of the right shape can be what the service answers. -/
theorem answer_exists (r : Receipt) (hw : r.WellFormed) (hs : ∀ n, r.status = some n → n < 2) (current : Nat) :
    ∃ readJson body, Answer readJson body r current :=
  ⟨fun _ => some (receiptJson r), serviceAnswer [] current r.block, hw, hs, [], receiptJson r, rfl, by decide, rfl,
    receiptJson_isReceipt r⟩

theorem exLog_wf : ∀ l ∈ [exLog0, exLog], l.address.length = 20 ∧ l.topics.length ≤ 4 ∧ ∀ t ∈ l.topics, t.length = 32 := by
  decide +kernel

theorem exHolds : Holds exId exLog (.nftEndBatchListing ⟨5⟩) :=
  ⟨.nftEndBatchListing, rfl, by decide, by decide +kernel⟩

theorem exRecognised : Recognised exCfg exLog.address exId :=
  ⟨.nftEndBatchListing, rfl, by decide⟩

theorem exSig : beVal (beBytes 32 (signature .nftEndBatchListing)) = signature .nftEndBatchListing :=
  beVal_beBytes 32 _ (by decide)

/-- A genuine event in a block 20 blocks deep is reported with its data. -/
example : ∃ readJson body, Answer readJson body ⟨some 1, some 100, [exLog]⟩ 120 ∧
    computeResult readJson exCfg (some body) exId = .ok ⟨.ok, some (.nftEndBatchListing ⟨5⟩)⟩ := by
  obtain ⟨readJson, body, a⟩ := answer_exists ⟨some 1, some 100, [exLog]⟩
    (fun l hl => exLog_wf l (by simp at hl; simp [hl])) (by simp) 120
  refine ⟨readJson, body, a, (C91_ok_iff a _ _ _).2 ⟨rfl, ⟨exLog, _, ⟨[], [], rfl, ⟨_, _, rfl, exSig⟩, by simp⟩, exRecognised, exHolds,
    rfl⟩, by decide⟩⟩

/-- **C91, the worker "must not panic" but does.** The full claim (the outcome of every check is reported) fails: for a successful
transaction with a genuine event and a log without topics in front of it, the worker of every validator panics. -/
theorem C91_anonymous_log_crashes : ∃ r : Receipt, r.WellFormed ∧ r.status = some 1 ∧
    (∃ l ∈ r.logs, Recognised exCfg l.address exId ∧ Holds exId l (.nftEndBatchListing ⟨5⟩)) ∧
    ∀ readJson body current, Answer readJson body r current → computeResult readJson exCfg (some body) exId = .panic := by
  refine ⟨⟨some 1, some 100, [exLog0, exLog]⟩, exLog_wf, rfl, ⟨exLog, by simp, exRecognised, exHolds⟩, ?_⟩
  intro readJson body current a
  exact (C91_panics_iff a exCfg exId).2 ⟨rfl, [], exLog0, [exLog], rfl, rfl, by simp⟩

/-- **C91, an event of a brand new block counts as final.** The service asks for the latest block number first and for the receipt
afterwards. If the transaction is mined in between, the subtraction wraps around and the worker sees almost 2^64 confirmations:
the event is reported as genuine although no block follows it. -/
theorem C91_newer_block_counts_as_final : ∃ r : Receipt, ∃ current : Nat, r.WellFormed ∧ r.block = some (current + 1) ∧
    ∀ readJson body, Answer readJson body r current →
      computeResult readJson exCfg (some body) exId = .ok ⟨.ok, some (.nftEndBatchListing ⟨5⟩)⟩ := by
  refine ⟨⟨some 1, some 101, [exLog]⟩, 100, fun l hl => exLog_wf l (by simp at hl; simp [hl]), rfl, ?_⟩
  intro readJson body a
  exact (C91_ok_iff a _ _ _).2 ⟨rfl, ⟨exLog, _, ⟨[], [], rfl, ⟨_, _, rfl, exSig⟩, by simp⟩, exRecognised, exHolds, rfl⟩, by decide⟩

end Verif.EventCheck
