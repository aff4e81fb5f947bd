import Verif.Props.EventLiveness

/-!
# C91–C93, continued: the texts the worker reads and the events it picks

Which strings the worker reads as bytes and as the status of a successful transaction, what a receipt without a block number counts
as, which event data the chain refuses, and which pending result a validator looks at.
-/

namespace Verif.EventCheck

open Verif Verif.Events
open Verif.Calldata (hexVal hexDecode hexEncode)
open Verif.EthEvents (EventId CheckResult EthEvent State Step Pending Unchecked Obs run step)
open Verif.Parsing (EventData)

variable {W : Type}

/-! ### Hexadecimal texts -/

/-- The character `c` is a hexadecimal digit of value `n`, in either case. -/
def HexDigit (c : UInt8) (n : Nat) : Prop :=
  n < 16 ∧ (c ∈ (ascii "0123456789abcdef")[n]? ∨ c ∈ (ascii "0123456789ABCDEF")[n]?)

/-- The text is two hexadecimal digits, of either case, per byte. -/
inductive HexDigits : List UInt8 → List UInt8 → Prop where
  | nil : HexDigits [] []
  | cons {a b : UInt8} {x y : Nat} {s t : List UInt8} : HexDigit a x → HexDigit b y → HexDigits s t →
      HexDigits (a :: b :: s) (UInt8.ofNat (16 * x + y) :: t)

/-- The text of bytes: their digits, possibly after `0x` or `0X`. -/
def HexText (s b : List UInt8) : Prop :=
  ∃ p ds, p ∈ [[], ascii "0x", ascii "0X"] ∧ s = p ++ ds ∧ HexDigits ds b

theorem lower_table : ∀ c : Fin 256,
    (hexVal (lower (UInt8.ofNat c.val)) = hexVal (UInt8.ofNat c.val)) ∧
    (lower (UInt8.ofNat c.val) = 48 ↔ UInt8.ofNat c.val = 48) ∧
    (lower (UInt8.ofNat c.val) = 120 ↔ UInt8.ofNat c.val = 120 ∨ UInt8.ofNat c.val = 88) := by decide +kernel

theorem ofFin (c : UInt8) : ∃ f : Fin 256, UInt8.ofNat f.val = c :=
  ⟨⟨c.toNat, c.toNat_lt⟩, by simp⟩

theorem hexVal_lower (c : UInt8) : hexVal (lower c) = hexVal c := by
  obtain ⟨f, rfl⟩ := ofFin c; exact (lower_table f).1

theorem lower_48 (c : UInt8) : lower c = 48 ↔ c = 48 := by
  obtain ⟨f, rfl⟩ := ofFin c; exact (lower_table f).2.1

theorem lower_120 (c : UInt8) : lower c = 120 ↔ c = 120 ∨ c = 88 := by
  obtain ⟨f, rfl⟩ := ofFin c; exact (lower_table f).2.2

theorem hexDigit_table : ∀ c : Fin 256, ∀ n : Fin 16,
    (hexVal (UInt8.ofNat c.val) = some n.val) ↔
      (UInt8.ofNat c.val ∈ (ascii "0123456789abcdef")[n.val]? ∨ UInt8.ofNat c.val ∈ (ascii "0123456789ABCDEF")[n.val]?) := by
  decide +kernel

theorem hexVal_lt {c : UInt8} {n : Nat} (h : hexVal c = some n) : n < 16 := by
  unfold hexVal at h
  split_ifs at h <;> injection h with h <;> omega

theorem hexDigit_iff (c : UInt8) (n : Nat) : HexDigit c n ↔ hexVal c = some n := by
  obtain ⟨f, rfl⟩ := ofFin c
  constructor
  · rintro ⟨h1, h2⟩; exact (hexDigit_table f ⟨n, h1⟩).2 h2
  · intro h; exact ⟨hexVal_lt h, (hexDigit_table f ⟨n, hexVal_lt h⟩).1 h⟩

theorem hexDecode_iff : ∀ (s b : List UInt8), hexDecode s = some b ↔ HexDigits s b
  | [], b => by
    constructor
    · intro h; simp only [hexDecode, Option.some.injEq] at h; subst h; exact .nil
    · intro h; cases h; rfl
  | [c], b => by
    constructor
    · intro h; simp [hexDecode] at h
    · intro h; cases h
  | a :: c :: s, b => by
    have ih := hexDecode_iff s
    constructor
    · intro h
      simp only [hexDecode, Option.bind_eq_bind, Option.bind_eq_some_iff] at h
      obtain ⟨x, hx, y, hy, r, hr, h⟩ := h
      injection h with h
      subst h
      exact .cons ((hexDigit_iff _ _).2 hx) ((hexDigit_iff _ _).2 hy) ((ih r).1 hr)
    · intro h
      cases h with
      | cons h1 h2 h3 =>
        simp only [hexDecode, (hexDigit_iff _ _).1 h1, (hexDigit_iff _ _).1 h2, (ih _).2 h3, Option.bind_eq_bind, Option.bind_some]

theorem hexDecode_map_lower : ∀ s : List UInt8, hexDecode (s.map lower) = hexDecode s
  | [] => rfl
  | [_] => rfl
  | a :: b :: s => by
    simp only [List.map_cons, hexDecode, hexVal_lower, hexDecode_map_lower s]

theorem strip0x_cases (s : List UInt8) :
    (∃ t, (s = ascii "0x" ++ t ∨ s = ascii "0X" ++ t) ∧ strip0x s = t.map lower) ∨
    ((∀ t, s ≠ ascii "0x" ++ t ∧ s ≠ ascii "0X" ++ t) ∧ strip0x s = s.map lower) := by
  have e1 : ascii "0x" = [48, 120] := by decide +kernel
  have e2 : ascii "0X" = [48, 88] := by decide +kernel
  rw [e1, e2]
  unfold strip0x
  match s with
  | [] => right; exact ⟨fun t => by simp, by simp⟩
  | [a] => right; exact ⟨fun t => by simp, by simp⟩
  | a :: b :: t =>
    by_cases h : a = 48 ∧ (b = 120 ∨ b = 88)
    · left
      refine ⟨t, ?_, ?_⟩
      · obtain ⟨rfl, rfl | rfl⟩ := h <;> simp
      · rw [if_pos (by simp [(lower_48 a).2 h.1, (lower_120 b).2 h.2])]; simp
    · right
      refine ⟨fun t' => ?_, ?_⟩
      · constructor <;> intro he <;> simp only [List.cons_append, List.nil_append, List.cons.injEq] at he <;>
          exact h ⟨he.1, by simp [he.2.1]⟩
      · rw [if_neg]
        intro he
        simp only [List.map_cons, List.take_succ_cons, List.take_zero, List.cons.injEq, and_true] at he
        exact h ⟨(lower_48 a).1 he.1, (lower_120 b).1 he.2⟩

theorem not_hexDigit_x (b : List UInt8) (a : UInt8) (t : List UInt8) (h : HexDigits (48 :: a :: t) b) : a ≠ 120 ∧ a ≠ 88 := by
  cases h with
  | cons h1 h2 h3 =>
    have := (hexDigit_iff _ _).1 h2
    constructor <;> rintro rfl <;> · revert this; simp [hexVal]

/-- **C91 (texts).** The worker reads a string as bytes exactly if it consists of two hexadecimal digits per byte, in either case,
possibly after `0x` or `0X`, and it reads these bytes; anything else is an error, never a panic. -/
theorem C91_hex_texts (s : List UInt8) : (∀ b, hexToBytes s = .ok b ↔ HexText s b) ∧ hexToBytes s ≠ .panic := by
  have key : ∀ b, hexDecode (strip0x s) = some b ↔ HexText s b := by
    intro b
    have e1 : ascii "0x" = [48, 120] := by decide +kernel
    have e2 : ascii "0X" = [48, 88] := by decide +kernel
    rcases strip0x_cases s with ⟨t, hs, hst⟩ | ⟨hs, hst⟩
    · rw [hst, hexDecode_map_lower, hexDecode_iff]
      constructor
      · intro h
        rcases hs with rfl | rfl
        · exact ⟨_, t, by simp, rfl, h⟩
        · exact ⟨_, t, by simp, rfl, h⟩
      · rintro ⟨p, ds, hp, hs', hd⟩
        simp only [List.mem_cons, List.not_mem_nil, or_false] at hp
        rw [e1, e2] at hs hp
        rcases hp with rfl | rfl | rfl
        · simp only [List.nil_append] at hs'
          subst hs'
          rcases hs with rfl | rfl
          · exact absurd rfl (not_hexDigit_x _ _ _ hd).1
          · exact absurd rfl (not_hexDigit_x _ _ _ hd).2
        all_goals
          subst hs'
          rcases hs with hs | hs <;> simp at hs <;> subst hs <;> exact hd
    · rw [hst, hexDecode_map_lower, hexDecode_iff]
      constructor
      · intro h; exact ⟨[], s, by simp, rfl, h⟩
      · rintro ⟨p, ds, hp, hs', hd⟩
        simp only [List.mem_cons, List.not_mem_nil, or_false] at hp
        rcases hp with rfl | rfl | rfl
        · simpa [hs'] using hd
        · exact absurd hs' (hs ds).1
        · exact absurd hs' (hs ds).2
  constructor
  · intro b
    unfold hexToBytes
    cases h : hexDecode (strip0x s) with
    | none =>
      constructor
      · intro h'; cases h'
      · intro h'; rw [(key b).2 h'] at h; cases h
    | some b' =>
      rw [← key b, h]
      simp
  · unfold hexToBytes
    cases hexDecode (strip0x s) <;> simp

example : HexText (ascii "0XaF09") [175, 9] :=
  ⟨ascii "0X", ascii "aF09", by simp, by decide +kernel,
    .cons (x := 10) (y := 15) (by unfold HexDigit; decide +kernel) (by unfold HexDigit; decide +kernel)
      (.cons (x := 0) (y := 9) (by unfold HexDigit; decide +kernel) (by unfold HexDigit; decide +kernel) .nil)⟩

/-! ### The status of a transaction -/

/-- The texts that mean status 1: any number of `0x`, then possibly `+`, then zeros and a one. -/
def SuccessText (s : List UInt8) : Prop :=
  ∃ k plus zeros, plus ∈ [[], ascii "+"] ∧
    s = (List.replicate k (ascii "0x")).flatten ++ plus ++ List.replicate zeros 48 ++ ascii "1"

theorem digits_pos {acc : Nat} (ha : 0 < acc) : ∀ {s : List UInt8}, s ≠ [] → ∀ n, digits acc s = some n → 16 ≤ n
  | [], h, _, _ => absurd rfl h
  | b :: s, _, n, h => by
    unfold digits at h
    cases hv : hexVal b with
    | none => rw [hv] at h; cases h
    | some d =>
      rw [hv] at h
      dsimp only at h
      split_ifs at h
      by_cases hs : s = []
      · subst hs; simp only [digits, Option.some.injEq] at h; omega
      · exact digits_pos (by omega) hs n h

theorem hexVal_table : ∀ c : Fin 256,
    (hexVal (UInt8.ofNat c.val) = some 0 ↔ UInt8.ofNat c.val = 48) ∧ (hexVal (UInt8.ofNat c.val) = some 1 ↔ UInt8.ofNat c.val = 49) := by
  decide +kernel

theorem digits_one : ∀ s : List UInt8, digits 0 s = some 1 ↔ ∃ z, s = List.replicate z 48 ++ [49]
  | [] => by simp [digits]
  | b :: s => by
    have ih := digits_one s
    have ht : (hexVal b = some 0 ↔ b = 48) ∧ (hexVal b = some 1 ↔ b = 49) := by
      obtain ⟨f, rfl⟩ := ofFin b; exact hexVal_table f
    constructor
    · intro h
      unfold digits at h
      cases hv : hexVal b with
      | none => rw [hv] at h; cases h
      | some d =>
        rw [hv] at h
        dsimp only at h
        split_ifs at h
        rw [Nat.zero_mul, Nat.zero_add] at h
        by_cases hd : d = 0
        · subst hd
          obtain ⟨z, rfl⟩ := ih.1 h
          refine ⟨z + 1, ?_⟩
          rw [ht.1.1 hv]; rfl
        · by_cases hs : s = []
          · subst hs
            simp only [digits, Option.some.injEq] at h
            subst h
            exact ⟨0, by rw [ht.2.1 hv]; rfl⟩
          · have := digits_pos (by omega) hs _ h; omega
    · rintro ⟨z, h⟩
      cases z with
      | zero =>
        simp only [List.replicate_zero, List.nil_append, List.cons.injEq] at h
        obtain ⟨rfl, rfl⟩ := h
        decide +kernel
      | succ z =>
        simp only [List.replicate_succ, List.cons_append, List.cons.injEq] at h
        obtain ⟨rfl, rfl⟩ := h
        unfold digits
        rw [ht.1.2 rfl]
        exact ih.2 ⟨z, rfl⟩

theorem trim0x_spec : ∀ s : List UInt8, ∃ k, s = (List.replicate k [48, 120]).flatten ++ trim0x s ∧ ∀ t, trim0x s ≠ 48 :: 120 :: t
  | [] => ⟨0, by simp [trim0x], by simp [trim0x]⟩
  | [a] => ⟨0, by simp [trim0x], by simp [trim0x]⟩
  | a :: b :: s => by
    by_cases h : a = 48 ∧ b = 120
    · obtain ⟨rfl, rfl⟩ := h
      obtain ⟨k, h1, h2⟩ := trim0x_spec s
      have e : trim0x (48 :: 120 :: s) = trim0x s := by rw [trim0x]
      refine ⟨k + 1, ?_, ?_⟩
      · rw [e, List.replicate_succ, List.flatten_cons]
        simp only [List.cons_append, List.nil_append]
        rw [← h1]
      · rw [e]; exact h2
    · have e : trim0x (a :: b :: s) = a :: b :: s := by
        rw [trim0x]
        intro s' he
        simp only [List.cons.injEq] at he
        exact h ⟨he.1, he.2.1⟩
      refine ⟨0, by simp [e], ?_⟩
      intro t he
      rw [e] at he
      simp only [List.cons.injEq] at he
      exact h ⟨he.1, he.2.1⟩

theorem trim0x_flatten (k : Nat) (t : List UInt8) : trim0x ((List.replicate k [48, 120]).flatten ++ t) = trim0x t := by
  induction k with
  | zero => rfl
  | succ k ih =>
    rw [List.replicate_succ, List.flatten_cons]
    simp only [List.cons_append, List.nil_append]
    rw [trim0x]; exact ih

theorem trim0x_id {t : List UInt8} (h : ∀ t', t ≠ 48 :: 120 :: t') : trim0x t = t := by
  unfold trim0x
  split
  · rename_i s; exact absurd rfl (h s)
  · rfl

/-- **C91 (status).** A receipt counts as that of a successful transaction exactly if its first member `status` is a string that means
one: `0x1`, and also `1`, `0x01`, `0x0x1`, `+1`. -/
theorem C91_status_texts (o : Obj) :
    getStatus o = .ok 1 ↔ ∃ pre s post, o = pre ++ (ascii "status", .str s) :: post ∧ (∀ kv ∈ pre, kv.1 ≠ ascii "status") ∧ SuccessText s := by
  have e1 : ascii "0x" = [48, 120] := by decide +kernel
  have e2 : ascii "1" = [49] := by decide +kernel
  have e3 : ascii "+" = [43] := by decide +kernel
  have key : ∀ s, fromRadix16 (trim0x s) = some 1 ↔ SuccessText s := by
    intro s
    unfold SuccessText
    rw [e1, e2, e3]
    constructor
    · intro h
      obtain ⟨k, h1, -⟩ := trim0x_spec s
      unfold fromRadix16 at h
      split at h
      · cases h
      · rename_i t ht
        split_ifs at h
        obtain ⟨z, hz⟩ := (digits_one _).1 h
        exact ⟨k, [43], z, by simp, by rw [h1, ht, hz]; simp⟩
      · obtain ⟨z, hz⟩ := (digits_one _).1 h
        exact ⟨k, [], z, by simp, by rw [h1, hz]; simp⟩
    · rintro ⟨k, plus, z, hp, rfl⟩
      simp only [List.mem_cons, List.not_mem_nil, or_false] at hp
      rcases hp with rfl | rfl
      · rw [List.append_nil, List.append_assoc, trim0x_flatten, trim0x_id]
        · have hd := (digits_one (List.replicate z 48 ++ [49])).2 ⟨z, rfl⟩
          unfold fromRadix16
          split
          · rename_i h; simp at h
          · rename_i t h
            cases z <;> simp [List.replicate_succ] at h
          · exact hd
        · intro t h
          match z with
          | 0 => simp at h
          | 1 => simp at h
          | z + 2 => simp [List.replicate_succ] at h
      · rw [List.append_assoc, List.append_assoc, trim0x_flatten, trim0x_id]
        · have hd := (digits_one (List.replicate z 48 ++ [49])).2 ⟨z, rfl⟩
          simp only [fromRadix16, List.cons_append, List.nil_append]
          rw [if_neg (by simp), hd]
        · intro t h; simp at h
  have hf : ∀ v, getValueOf (ascii "status") o = .ok v ↔
      ∃ pre post, o = pre ++ (ascii "status", v) :: post ∧ ∀ kv ∈ pre, kv.1 ≠ ascii "status" := by
    intro v
    unfold getValueOf
    constructor
    · intro h
      cases hq : o.find? (fun kv => kv.1 == ascii "status") with
      | none => rw [hq] at h; cases h
      | some kv =>
        rw [hq] at h
        injection h with h
        obtain ⟨h1, pre, post, h2, h3⟩ := List.find?_eq_some_iff_append.1 hq
        refine ⟨pre, post, ?_, fun kv hkv => by simpa using h3 kv hkv⟩
        have : kv = (ascii "status", v) := Prod.ext (by simpa using h1) h
        rw [h2, this]
    · rintro ⟨pre, post, h1, h2⟩
      have : o.find? (fun kv => kv.1 == ascii "status") = some (ascii "status", v) :=
        List.find?_eq_some_iff_append.2 ⟨by simp, pre, post, h1, fun kv hkv => by simpa using h2 kv hkv⟩
      rw [this]
  unfold getStatus
  constructor
  · intro h
    cases hv : getValueOf (ascii "status") o with
    | err => rw [hv] at h; cases h
    | panic => rw [hv] at h; cases h
    | ok v =>
      rw [hv] at h
      obtain ⟨pre, post, h1, h2⟩ := (hf v).1 hv
      cases v with
      | str s =>
        simp only [Out.bind, getString] at h
        cases hr : fromRadix16 (trim0x s) with
        | none => rw [hr] at h; cases h
        | some n =>
          rw [hr] at h
          injection h with h
          subst h
          exact ⟨pre, s, post, h1, h2, (key s).1 hr⟩
      | arr => cases h
      | obj => cases h
      | other => cases h
  · rintro ⟨pre, s, post, h1, h2, h3⟩
    rw [(hf _).2 ⟨pre, post, h1, h2⟩]
    simp only [Out.bind, getString, (key s).2 h3]

example : SuccessText (ascii "0x1") := ⟨1, [], 0, by simp, by decide +kernel⟩

/-! ### A receipt without a block -/

/-- **C91 (no block number).** A receipt without a block number (a transaction that is not in a block yet) is taken to be in block 0:
its event is reported as genuine and final whenever the chain is as long as the required confirmations. -/
theorem C91_receipt_without_block_counts_as_final {readJson : List UInt8 → Option Json} {body : List UInt8} {r : Receipt} {current : Nat}
    (a : Answer readJson body r current) (c : Cfg) (id : EventId) (d : EventData) (hb : r.block = none) (hcur : current < pow64) :
    computeResult readJson c (some body) id = .ok ⟨.ok, some d⟩ ↔ Genuine c r id d ∧ c.minConfs ≤ current := by
  rw [C91_ok_iff a]
  have hc : confirmations current r.block = current := by
    unfold confirmations
    rw [hb, Option.getD_none, Nat.sub_zero, Nat.add_mod_right, Nat.mod_eq_of_lt hcur]
  rw [hc]
  unfold Genuine
  constructor
  · rintro ⟨h1, ⟨l, e, h2, h3, h4, h5⟩, h6⟩
    injection h5 with h5
    subst h5
    exact ⟨⟨h1, l, h2, h3, h4⟩, h6⟩
  · rintro ⟨⟨h1, l, h2, h3, h4⟩, h6⟩
    exact ⟨h1, ⟨l, d, h2, h3, h4, rfl⟩, h6⟩

example : ∃ readJson body, Answer readJson body ⟨some 1, none, [exLog]⟩ 20 ∧
    computeResult readJson exCfg (some body) exId = .ok ⟨.ok, some (.nftEndBatchListing ⟨5⟩)⟩ := by
  obtain ⟨readJson, body, a⟩ := answer_exists ⟨some 1, none, [exLog]⟩
    (fun l hl => exLog_wf l (by simp at hl; simp [hl])) (by simp) 20
  exact ⟨readJson, body, a, (C91_receipt_without_block_counts_as_final a _ _ _ rfl (by decide)).2
    ⟨⟨rfl, exLog, ⟨[], [], rfl, ⟨_, _, rfl, exSig⟩, by simp⟩, exRecognised, exHolds⟩, by decide⟩⟩

/-! ### Which data the chain refuses -/

/-- Event data the chain refuses as malformed: a zero address, key, id or amount where one is needed, or an empty reference. -/
inductive Malformed : EventData → Prop where
  | zeroEthKey {d} : d.ethPublicKey = Vector.replicate 64 0 → Malformed (.addedValidator d)
  | zeroNewAuthor {d} : d.t2Address = Vector.replicate 32 0 → Malformed (.addedValidator d)
  | zeroDeposit {d} : d.validatorAccountId = 0 → Malformed (.addedValidator d)
  | liftToken {d} : d.tokenContract = Vector.replicate 20 0 → Malformed (.lifted d)
  | liftReceiver {d} : d.receiverAddress = Vector.replicate 32 0 → Malformed (.lifted d)
  | marketToken {d} : d.tokenContract = Vector.replicate 20 0 → Malformed (.liftedToPredictionMarket d)
  | marketReceiver {d} : d.receiverAddress = Vector.replicate 32 0 → Malformed (.liftedToPredictionMarket d)
  | erc20Token {d} : d.tokenContract = Vector.replicate 20 0 → Malformed (.erc20Transfer d)
  | erc20Receiver {d} : d.receiverAddress = Vector.replicate 32 0 → Malformed (.erc20Transfer d)
  | batch {d} : d.batchId = 0 → Malformed (.nftMinted d)
  | mintOwner {d} : d.owner = Vector.replicate 32 0 → Malformed (.nftMinted d)
  | mintRef {d} : d.ref = [] → Malformed (.nftMinted d)
  | nftReceiver {d} : d.transferTo = Vector.replicate 32 0 → Malformed (.nftTransferTo d)
  | growthAmount {d} : d.amount.val = 0 → Malformed (.avtGrowthLifted d)
  | revertedToken {d} : d.tokenContract = Vector.replicate 20 0 → Malformed (.lowerReverted d)
  | revertedReceiver {d} : d.receiverAddress = Vector.replicate 32 0 → Malformed (.lowerReverted d)
  | revertedAmount {d} : d.amount.val = 0 → Malformed (.lowerReverted d)
  | claimed {d} : Malformed (.lowerClaimed d)

theorem isValid_iff (e : EventData) : isValid (some e) = false ↔ Malformed e := by
  constructor
  · intro h
    cases e with
    | addedValidator d =>
      simp only [isValid, Bool.and_eq_false_iff, bne_eq_false_iff_eq] at h
      rcases h with (h | h) | h
      · exact .zeroEthKey h
      · exact .zeroNewAuthor h
      · exact .zeroDeposit h
    | lifted d =>
      simp only [isValid, Bool.and_eq_false_iff, bne_eq_false_iff_eq] at h
      exact h.elim .liftToken .liftReceiver
    | liftedToPredictionMarket d =>
      simp only [isValid, Bool.and_eq_false_iff, bne_eq_false_iff_eq] at h
      exact h.elim .marketToken .marketReceiver
    | erc20Transfer d =>
      simp only [isValid, Bool.and_eq_false_iff, bne_eq_false_iff_eq] at h
      exact h.elim .erc20Token .erc20Receiver
    | nftMinted d =>
      simp only [isValid, Bool.and_eq_false_iff, bne_eq_false_iff_eq, Bool.not_eq_false', List.isEmpty_iff] at h
      rcases h with (h | h) | h
      · exact .batch h
      · exact .mintOwner h
      · exact .mintRef h
    | nftTransferTo d =>
      simp only [isValid, bne_eq_false_iff_eq] at h
      exact .nftReceiver h
    | nftCancelListing d => simp [isValid] at h
    | nftEndBatchListing d => simp [isValid] at h
    | avtGrowthLifted d =>
      simp only [isValid, decide_eq_false_iff_not, Nat.not_lt, Nat.le_zero] at h
      exact .growthAmount h
    | lowerReverted d =>
      simp only [isValid, Bool.and_eq_false_iff, bne_eq_false_iff_eq, decide_eq_false_iff_not, Nat.not_lt, Nat.le_zero] at h
      rcases h with (h | h) | h
      · exact .revertedToken h
      · exact .revertedReceiver h
      · exact .revertedAmount h
    | lowerClaimed d => exact .claimed
  · intro h
    cases h <;> simp_all [isValid]

/-- **C93 (which events block).** For a genuine event at the head of the queue that is old enough, the primary's worker makes a submission;
the chain refuses it (nothing changes, so the event stays at the head) if the data is malformed, and otherwise takes the event off the
queue. -/
theorem C93_blocking_data_partial {readJson : List UInt8 → Option Json} {code : Option EventData → Nat} (handler : EthEvent → W → W × Bool)
    (nd : Node) (s : State W) (finalised : Nat) (u : Unchecked) (r : Receipt) (current : Nat) (e : EventData)
    (hn : nextToCheck s finalised = some u) (hs : Sees readJson nd u.id r current) (hr : Readable r u.id)
    (hg : Genuine nd.cfg r u.id e) (hc : nd.cfg.minConfs ≤ confirmations current r.block)
    (hme : Avn.isValidator s.validators nd.me = true) (hprim : Avn.primaryForBlock s.validators s.block = .ok nd.me)
    (hroom : s.pending.length < 50) (hb : s.block + s.period < pow32) :
    ∃ st rest, work readJson code nd s s.block finalised = .ok (nd.validated, st :: rest) ∧
      (Malformed e → step handler s st = s) ∧
      (¬ Malformed e → (step handler s st).unchecked = s.unchecked.eraseP (fun x => x.id == u.id && x.counter == u.counter) ∧
        (step handler s st).pending.length = s.pending.length + 1) := by
  by_cases hm : Malformed e
  · have hv : verdict readJson nd u.id = .ok ⟨.ok, some e⟩ := by
      rcases verdict_truth hs hr with ⟨e', hg', hv⟩ | ⟨hg', -⟩
      · rw [hv, if_neg (by omega), hg.unique hg']
      · exact absurd ⟨e, hg⟩ hg'
    have hcheck : checkStep readJson code nd s s.block finalised =
        .ok (some (.submit ⟨⟨u.id, code (some e)⟩, .ok, nd.me, s.block, 0, 0⟩ u.counter nd.me false true)) := by
      unfold checkStep
      rw [hn]
      dsimp only
      rw [hv]
      simp [Out.bind, (isValid_iff e).2 hm]
    refine ⟨.submit ⟨⟨u.id, code (some e)⟩, .ok, nd.me, s.block, 0, 0⟩ u.counter nd.me false true,
      (processStep nd s s.block finalised).toList, ?_, fun _ => ?_, fun h => absurd hm h⟩
    · unfold work
      rw [hprim]
      dsimp only
      rw [if_pos rfl, hcheck]
      rfl
    · show (if EthEvents.validSubmit s ⟨⟨u.id, code (some e)⟩, .ok, nd.me, s.block, 0, 0⟩ u.counter nd.me false true = true then _ else s) = s
      rw [if_neg]
      unfold EthEvents.validSubmit
      simp
  · obtain ⟨st, rest, p, h1, -, -, -, -, -, -, h2, h3⟩ := C93_genuine_event_gets_checked_partial (code := code) handler nd s finalised u r current e
      hn hs hr hg hc (by by_contra h; exact hm ((isValid_iff e).1 (by simpa using h))) hme hprim hroom hb
    exact ⟨st, rest, h1, fun h => absurd h hm, fun _ => ⟨h3, by rw [h2]; simp⟩⟩

/-! ### Which result a validator looks at -/

/-- A pending result a validator still has to look at: submitted by somebody else, of a finalised block, of an event that is not on
its list of validated events. -/
def ToValidate (nd : Node) (finalised : Nat) (p : Pending) : Prop :=
  p.check.checkedBy ≠ nd.me ∧ p.block ≤ finalised ∧ p.id ∉ nd.validated.getD []

/-- **C92 (every result is looked at).** A validator looks at the first pending result it still has to validate, and at none only if there
is no such result. -/
theorem C92_reaches_the_first_unvalidated (nd : Node) (s : State W) (finalised : Nat) :
    (∀ p, nextToValidate nd s finalised = some p ↔
      ∃ pre post, s.pending = pre ++ p :: post ∧ ToValidate nd finalised p ∧ ∀ q ∈ pre, ¬ ToValidate nd finalised q) ∧
    (nextToValidate nd s finalised = none ↔ ∀ p ∈ s.pending, ¬ ToValidate nd finalised p) := by
  have key : ∀ p : Pending, ((if p.check.checkedBy = nd.me then false
     else match nd.validated with
      | none => true
      | some l => !l.contains p.id) && decide (p.block ≤ finalised)) = true ↔ ToValidate nd finalised p := by
    intro p
    unfold ToValidate
    by_cases h : p.check.checkedBy = nd.me
    · simp [h]
    · rw [if_neg h]
      cases nd.validated <;> simp [h, and_comm]
  unfold nextToValidate
  constructor
  · intro p
    rw [List.find?_eq_some_iff_append]
    constructor
    · rintro ⟨h1, pre, post, h2, h3⟩
      refine ⟨pre, post, h2, (key p).1 h1, fun q hq hv => ?_⟩
      have h4 := h3 q hq
      have h5 := (key q).2 hv
      revert h4 h5
      generalize (_ && _ : Bool) = z
      cases z <;> simp
    · rintro ⟨pre, post, h2, h1, h3⟩
      refine ⟨(key p).2 h1, pre, post, h2, fun q hq => ?_⟩
      rw [Bool.not_eq_true']
      exact Bool.eq_false_iff.2 fun h => h3 q hq ((key q).1 h)
  · rw [List.find?_eq_none]
    constructor
    · intro h p hp hv; exact h p hp ((key p).2 hv)
    · intro h p hp hv; exact h p hp ((key p).1 hv)

end Verif.EventCheck
