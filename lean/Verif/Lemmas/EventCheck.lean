import Verif.Model.EventCheck
import Verif.Lemmas.Encoding
import Verif.Props.Calldata

/-!
# What the worker reads out of a receipt

`IsReceipt` says that a JSON value is the rendering of an Ethereum receipt as the external service produces it (`web3`'s
`TransactionReceipt`): members in any order, with any other members around them.
-/

namespace Verif.EventCheck

open Verif Verif.Events
open Verif.Calldata (hexVal hexDecode hexEncode hexDigit)

/-- A log of a transaction. -/
structure EthLog where
  address : List UInt8
  topics : List (List UInt8)
  data : List UInt8

/-- A receipt: whether the transaction succeeded (`some 1`), its block (absent while pending) and its logs. -/
structure Receipt where
  status : Option Nat
  block : Option Nat
  logs : List EthLog

/-- As Ethereum produces them: addresses of 20 bytes, at most four topics of 32 bytes, possibly none. -/
def Receipt.WellFormed (r : Receipt) : Prop :=
  ∀ l ∈ r.logs, l.address.length = 20 ∧ l.topics.length ≤ 4 ∧ ∀ t ∈ l.topics, t.length = 32

/-- The object has this member, and it is the first one with that key. -/
def Field (o : Obj) (key : List UInt8) (v : Json) : Prop :=
  ∃ a b, o = a ++ (key, v) :: b ∧ ∀ kv ∈ a, kv.1 ≠ key

/-- `"0x…"`. -/
def hex0x (b : List UInt8) : List UInt8 := [48, 120] ++ hexEncode b

/-- The status member: `"0x1"`, `"0x0"`, or null. -/
def statusJson : Option Nat → Json
  | none => .other
  | some n => .str ([48, 120] ++ [hexDigit n])

/-- Rendering of a log. -/
def IsLog (j : Json) (l : EthLog) : Prop :=
  ∃ o, j = .obj o ∧ Field o (ascii "address") (.str (hex0x l.address)) ∧
    Field o (ascii "topics") (.arr (l.topics.map fun t => .str (hex0x t))) ∧
    Field o (ascii "data") (.str (hex0x l.data))

/-- Rendering of a receipt. -/
def IsReceipt (j : Json) (r : Receipt) : Prop :=
  ∃ o ls, j = .obj o ∧ Field o (ascii "status") (statusJson r.status) ∧ Field o (ascii "logs") (.arr ls) ∧
    List.Forall₂ IsLog ls r.logs

theorem getValueOf_field {o : Obj} {key : List UInt8} {v : Json} (h : Field o key v) : getValueOf key o = .ok v := by
  obtain ⟨a, b, rfl, ha⟩ := h
  unfold getValueOf
  rw [List.find?_append]
  have : a.find? (fun kv => kv.1 == key) = none := by
    rw [List.find?_eq_none]; intro kv hkv; simpa using ha kv hkv
  rw [this]; simp

/-! ### Hexadecimal -/

theorem lower_hexDigit : ∀ n : Fin 16, lower (hexDigit n.val) = hexDigit n.val := by decide

theorem map_lower_hexEncode (b : List UInt8) : (hexEncode b).map lower = hexEncode b := by
  induction b with
  | nil => rfl
  | cons x xs ih =>
    have h1 := lower_hexDigit ⟨x.toNat / 16, by have := x.toNat_lt; omega⟩
    have h2 := lower_hexDigit ⟨x.toNat % 16, by omega⟩
    simp only [hexEncode, List.map_cons, ih]
    simp only at h1 h2
    rw [h1, h2]

theorem strip0x_hex0x (b : List UInt8) : strip0x (hex0x b) = hexEncode b := by
  unfold strip0x hex0x
  have : ([48, 120] ++ hexEncode b).map lower = [48, 120] ++ hexEncode b := by
    rw [List.map_append, map_lower_hexEncode]; rfl
  rw [this]; simp

theorem hexToBytes_hex0x (b : List UInt8) : hexToBytes (hex0x b) = .ok b := by
  unfold hexToBytes; rw [strip0x_hex0x, Calldata.hexDecode_encode]

theorem toBytes32_hex0x (b : List UInt8) (h : b.length = 32) : toBytes32 (hex0x b) = .ok b := by
  unfold toBytes32; rw [strip0x_hex0x, Calldata.hexDecode_encode]; simp [h]

/-! ### One log -/

theorem topicMatches_log {j : Json} {l : EthLog} (h : IsLog j l) (hw : ∀ t ∈ l.topics, t.length = 32) (sig : Nat) :
    topicMatches j sig = match l.topics with
      | [] => .panic
      | t :: _ => .ok (beVal t == sig) := by
  obtain ⟨o, rfl, -, ht, -⟩ := h
  unfold topicMatches getEventSignature
  simp only [getObject, Out.bind, getValueOf_field ht, getArray]
  cases hts : l.topics with
  | nil => rfl
  | cons t ts =>
    rw [hts] at hw
    simp only [List.map_cons, getString]
    rw [toBytes32_hex0x t (hw t (by simp))]

theorem getContractAddress_log {j : Json} {l : EthLog} (h : IsLog j l) (hw : l.address.length = 20) :
    getContractAddress j = .ok l.address := by
  obtain ⟨o, rfl, ha, -, -⟩ := h
  unfold getContractAddress
  simp only [getObject, Out.bind, getValueOf_field ha, getString, hexToBytes_hex0x, hw, if_true]

theorem topicBytes_map (ts : List (List UInt8)) : topicBytes (ts.map fun t => .str (hex0x t)) = .ok ts := by
  induction ts with
  | nil => rfl
  | cons t ts ih => simp only [List.map_cons, topicBytes, getString, Out.bind, hexToBytes_hex0x, ih]

theorem getTopics_log {j : Json} {l : EthLog} (h : IsLog j l) : getTopics j = .ok l.topics := by
  obtain ⟨o, rfl, -, ht, -⟩ := h
  unfold getTopics
  simp only [getObject, Out.bind, getValueOf_field ht, getArray, topicBytes_map]

theorem getData_log {j : Json} {l : EthLog} (h : IsLog j l) :
    getData j = .ok (if l.data = [] then none else some l.data) := by
  obtain ⟨o, rfl, -, -, hd⟩ := h
  unfold getData
  simp only [getObject, Out.bind, getValueOf_field hd, getString, hexToBytes_hex0x]

/-! ### The search -/

/-- The search for the event among the logs: a panic at a log without topics, otherwise the first match. -/
inductive Search (sig : Nat) : List EthLog → Out (Option EthLog) → Prop
  | nil : Search sig [] (.ok none)
  | anonymous (l : EthLog) (ls : List EthLog) (h : l.topics = []) : Search sig (l :: ls) .panic
  | found (l : EthLog) (ls : List EthLog) (t : List UInt8) (ts : List (List UInt8)) (h : l.topics = t :: ts) (hm : beVal t = sig) :
      Search sig (l :: ls) (.ok (some l))
  | next (l : EthLog) (ls : List EthLog) (t : List UInt8) (ts : List (List UInt8)) (h : l.topics = t :: ts) (hm : beVal t ≠ sig)
      (r : Out (Option EthLog)) (hr : Search sig ls r) : Search sig (l :: ls) r

theorem findLog_search (sig : Nat) : ∀ {js : List Json} {ls : List EthLog}, List.Forall₂ IsLog js ls →
    (∀ l ∈ ls, ∀ t ∈ l.topics, t.length = 32) →
    (findLog sig js = .panic ∧ Search sig ls .panic) ∨ (findLog sig js = .ok none ∧ Search sig ls (.ok none)) ∨
      ∃ j l, findLog sig js = .ok (some j) ∧ IsLog j l ∧ l ∈ ls ∧ Search sig ls (.ok (some l)) := by
  intro js ls h
  induction h with
  | nil => intro _; exact .inr (.inl ⟨rfl, .nil⟩)
  | @cons j l js ls hjl hrest ih =>
    intro hw
    have hm := topicMatches_log hjl (hw l (by simp)) sig
    unfold findLog
    rw [hm]
    cases ht : l.topics with
    | nil => exact .inl ⟨rfl, .anonymous l ls ht⟩
    | cons t ts =>
      dsimp only
      by_cases hs : beVal t = sig
      · have : (beVal t == sig) = true := by simpa using hs
        rw [this]
        exact .inr (.inr ⟨j, l, rfl, hjl, by simp, .found l ls t ts ht hs⟩)
      · have : (beVal t == sig) = false := by simpa using hs
        rw [this]
        dsimp only
        rcases ih (fun l hl => hw l (by simp [hl])) with ⟨h1, h2⟩ | ⟨h1, h2⟩ | ⟨j', l', h1, h2, h3, h4⟩
        · exact .inl ⟨h1, .next l ls t ts ht hs _ h2⟩
        · exact .inr (.inl ⟨h1, .next l ls t ts ht hs _ h2⟩)
        · exact .inr (.inr ⟨j', l', h1, h2, by simp [h3], .next l ls t ts ht hs _ h4⟩)

theorem Search.det {sig : Nat} {ls : List EthLog} {a b : Out (Option EthLog)} (ha : Search sig ls a) (hb : Search sig ls b) : a = b := by
  induction ha generalizing b with
  | nil => cases hb; rfl
  | anonymous l ls h => cases hb <;> simp_all
  | found l ls t ts h hm => cases hb <;> simp_all
  | next l ls t ts h hm r hr ih =>
    cases hb with
    | anonymous _ _ h' => simp_all
    | found _ _ _ _ h' hm' => simp_all
    | next _ _ _ _ h' hm' r' hr' => exact ih hr'

theorem search_found_iff (sig : Nat) (ls : List EthLog) (l : EthLog) :
    Search sig ls (.ok (some l)) ↔ ∃ pre post, ls = pre ++ l :: post ∧ (∃ t ts, l.topics = t :: ts ∧ beVal t = sig) ∧
      ∀ x ∈ pre, ∃ t ts, x.topics = t :: ts ∧ beVal t ≠ sig := by
  constructor
  · intro h
    generalize hr : Out.ok (some l) = r at h
    induction h with
    | nil => cases hr
    | anonymous => cases hr
    | found l' ls t ts h hm =>
      injection hr with hr; injection hr with hr; subst hr
      exact ⟨[], ls, rfl, ⟨t, ts, h, hm⟩, by simp⟩
    | next l' ls t ts h hm r hr' ih =>
      obtain ⟨pre, post, rfl, h1, h2⟩ := ih hr
      refine ⟨l' :: pre, post, rfl, h1, ?_⟩
      intro x hx
      rcases List.mem_cons.1 hx with rfl | hx
      · exact ⟨t, ts, h, hm⟩
      · exact h2 x hx
  · rintro ⟨pre, post, rfl, ⟨t, ts, h, hm⟩, h2⟩
    induction pre with
    | nil => exact .found l post t ts h hm
    | cons x pre ih =>
      obtain ⟨t', ts', h', hm'⟩ := h2 x (by simp)
      exact .next x _ t' ts' h' hm' _ (ih fun y hy => h2 y (by simp [hy]))

theorem search_panic_iff (sig : Nat) (ls : List EthLog) :
    Search sig ls .panic ↔ ∃ pre l post, ls = pre ++ l :: post ∧ l.topics = [] ∧
      ∀ x ∈ pre, ∃ t ts, x.topics = t :: ts ∧ beVal t ≠ sig := by
  constructor
  · intro h
    generalize hr : (Out.panic : Out (Option EthLog)) = r at h
    induction h with
    | nil => cases hr
    | found => cases hr
    | anonymous l ls h => exact ⟨[], l, ls, rfl, h, by simp⟩
    | next l' ls t ts h hm r hr' ih =>
      obtain ⟨pre, l, post, rfl, h1, h2⟩ := ih hr
      refine ⟨l' :: pre, l, post, rfl, h1, ?_⟩
      intro x hx
      rcases List.mem_cons.1 hx with rfl | hx
      · exact ⟨t, ts, h, hm⟩
      · exact h2 x hx
  · rintro ⟨pre, l, post, rfl, h, h2⟩
    induction pre with
    | nil => exact .anonymous l post h
    | cons x pre ih =>
      obtain ⟨t', ts', h', hm'⟩ := h2 x (by simp)
      exact .next x _ t' ts' h' hm' _ (ih fun y hy => h2 y (by simp [hy]))

theorem findEvent_receipt {o : Obj} {r : Receipt} (h : IsReceipt (.obj o) r) (hw : r.WellFormed) (sig : Nat) :
    (findEvent o sig = .panic ∧ Search sig r.logs .panic) ∨ (findEvent o sig = .ok none ∧ Search sig r.logs (.ok none)) ∨
      ∃ l, l ∈ r.logs ∧ Search sig r.logs (.ok (some l)) ∧
        findEvent o sig = .ok (some ⟨if l.data = [] then none else some l.data, l.topics, l.address⟩) := by
  obtain ⟨o', ls, ho, -, hl, hf⟩ := h
  injection ho with ho; subst ho
  have he : getEvents o = ls := by unfold getEvents; rw [getValueOf_field hl]; rfl
  unfold findEvent
  rw [he]
  rcases findLog_search sig hf (fun l hl => (hw l hl).2.2) with ⟨h1, h2⟩ | ⟨h1, h2⟩ | ⟨j, l, h1, h2, h3, h4⟩
  · rw [h1]; exact .inl ⟨rfl, h2⟩
  · rw [h1]; exact .inr (.inl ⟨rfl, h2⟩)
  · rw [h1]
    refine .inr (.inr ⟨l, h3, h4, ?_⟩)
    dsimp only
    rw [getContractAddress_log h2 (hw l h3).1]
    dsimp only
    rw [getTopics_log h2, getData_log h2]
    rfl

theorem getStatus_receipt {o : Obj} {r : Receipt} (h : IsReceipt (.obj o) r) (hs : ∀ n, r.status = some n → n < 2) :
    getStatus o = .ok 1 ↔ r.status = some 1 := by
  obtain ⟨o', ls, ho, hst, -, -⟩ := h
  injection ho with ho; subst ho
  unfold getStatus
  rw [getValueOf_field hst]
  cases hr : r.status with
  | none => simp [statusJson, Out.bind, getString]
  | some n =>
    have := hs n hr
    have hn : n = 0 ∨ n = 1 := by omega
    rcases hn with rfl | rfl
    · simp only [statusJson, Out.bind, getString]; decide
    · simp only [statusJson, Out.bind, getString]; decide

/-! ### The answer of the service -/

theorem leVal_append (a b : List UInt8) : leVal (a ++ b) = leVal a + 256 ^ a.length * leVal b := by
  induction a with
  | nil => simp [leVal]
  | cons x xs ih => simp only [List.cons_append, leVal, ih, List.length_cons, pow_succ]; ring

theorem leBytes_length (k n : Nat) : (leBytes k n).length = k := by
  induction k generalizing n with
  | zero => rfl
  | succ k ih => simp [leBytes, ih]

theorem decodeCompact_compact (n : Nat) (h : n < pow32) (rest : List UInt8) :
    decodeCompact (compact n ++ rest) = some (n, rest) := by
  have hp : pow32 = 4294967296 := rfl
  rw [hp] at h
  unfold compact
  by_cases h1 : n < 64
  · rw [if_pos h1]
    have hb : (UInt8.ofNat (n * 4)).toNat = n * 4 := by simp; omega
    simp only [List.cons_append, List.nil_append, decodeCompact, hb]
    rw [if_pos (by omega), Nat.mul_div_cancel _ (by omega)]
  rw [if_neg h1]
  by_cases h2 : n < 16384
  · rw [if_pos h2]
    have hl := leVal_leBytes 2 (n * 4 + 1) (by norm_num; omega)
    have hlen := leBytes_length 2 (n * 4 + 1)
    obtain ⟨a, b, hab⟩ : ∃ a b, leBytes 2 (n * 4 + 1) = [a, b] := ⟨_, _, rfl⟩
    rw [hab] at hl ⊢
    have ha : a.toNat % 4 = 1 := by simp only [leVal] at hl; omega
    simp only [List.cons_append, List.nil_append, decodeCompact]
    rw [if_neg (by omega), if_pos ha]
    simp only [List.length_cons, List.take_succ_cons, List.take_zero, List.drop_succ_cons, List.drop_zero]
    rw [if_neg (by omega), hl]
    have : (n * 4 + 1) / 4 = n := by omega
    rw [this, if_neg (by omega)]
  rw [if_neg h2]
  by_cases h3 : n < 1073741824
  · rw [if_pos h3]
    have hl := leVal_leBytes 4 (n * 4 + 2) (by norm_num; omega)
    obtain ⟨a, b, c, d, hab⟩ : ∃ a b c d, leBytes 4 (n * 4 + 2) = [a, b, c, d] := ⟨_, _, _, _, rfl⟩
    rw [hab] at hl ⊢
    have ha : a.toNat % 4 = 2 := by simp only [leVal] at hl; omega
    simp only [List.cons_append, List.nil_append, decodeCompact]
    rw [if_neg (by omega), if_neg (by omega), if_pos ha]
    simp only [List.length_cons, List.take_succ_cons, List.take_zero, List.drop_succ_cons, List.drop_zero]
    rw [if_neg (by omega), hl]
    have : (n * 4 + 2) / 4 = n := by omega
    rw [this, if_neg (by omega)]
  · rw [if_neg h3]
    have hl := leVal_leBytes 4 n (by norm_num; omega)
    obtain ⟨a, b, c, d, hab⟩ : ∃ a b c d, leBytes 4 n = [a, b, c, d] := ⟨_, _, _, _, rfl⟩
    rw [hab] at hl ⊢
    simp only [List.cons_append, List.nil_append, decodeCompact]
    rw [if_neg (by decide), if_neg (by decide), if_neg (by decide), if_pos (by decide)]
    simp only [List.length_cons, List.take_succ_cons, List.take_zero, List.drop_succ_cons, List.drop_zero]
    rw [if_neg (by omega), hl, if_neg (by omega)]

theorem decodeVec_scaleBytes (bs rest : List UInt8) (h : bs.length < pow32) :
    decodeVec (scaleBytes bs ++ rest) = some (bs, rest) := by
  unfold decodeVec scaleBytes
  rw [List.append_assoc, decodeCompact_compact _ h]
  simp

theorem compact_length_le (n : Nat) : (compact n).length ≤ 5 := by
  unfold compact
  split_ifs <;> simp [leBytes_length]

theorem parseResponse_service (readJson : List UInt8 → Option Json) (text : List UInt8) (o : Obj) (current : Nat) (block : Option Nat)
    (hlen : text.length + 5 < pow32) (hread : readJson text = some (.obj o)) :
    parseResponse readJson (serviceAnswer text current block) = some (o, confirmations current block) := by
  have hc := compact_length_le text.length
  have h1 : (scaleBytes text).length < pow32 := by simp only [scaleBytes, List.length_append]; omega
  have h2 := decodeVec_scaleBytes (scaleBytes text) (leBytes 8 (confirmations current block)) h1
  have h3 := decodeVec_scaleBytes text [] (by omega)
  rw [List.append_nil] at h3
  have h4 : leVal (leBytes 8 (confirmations current block)) = confirmations current block := by
    apply leVal_leBytes
    have : confirmations current block < pow64 := Nat.mod_lt _ (by decide)
    simpa [pow64] using this
  unfold parseResponse serviceAnswer
  rw [Calldata.hexDecode_encode]
  simp only [Option.bind_eq_bind, Option.bind_some, decodeResponse, h2, leBytes_length, lt_irrefl, if_false,
    List.take_of_length_le (Nat.le_of_eq (leBytes_length 8 _)), h4, h3, hread]

end Verif.EventCheck
