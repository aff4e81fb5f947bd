import Verif.Model.Calldata
import Verif.Props.Eip712

/-!
# C86: calldata carries exactly the confirmed request
-/

namespace Verif.Calldata

open Verif.Eip712 (Param Out word addrWord digits digits_spec toList_inj Call)
open Verif.TokenManager (toBytes?_toList)

variable (keccak : List UInt8 → Hash) (validUtf8 : List UInt8 → Bool)

/-! ### Specification: how a contract reads its arguments (Solidity ABI) -/

/-- The word at byte `pos` after the function selector. -/
def wordAt (cd : List UInt8) (pos : Nat) : List UInt8 := (cd.drop (4 + pos)).take 32

/-- The `k`-th argument as an integer. -/
def argUint (cd : List UInt8) (k : Nat) : Nat := beVal (wordAt cd (32 * k))

/-- The `k`-th argument as `bytes`: an offset in the head, there the length and then the bytes. -/
def argBytes (cd : List UInt8) (k : Nat) : List UInt8 :=
  (cd.drop (4 + argUint cd k + 32)).take (beVal (wordAt cd (argUint cd k)))

/-- The contract reads `t` as its `k`-th argument. -/
def Reads (cd : List UInt8) (k : Nat) : Tok → Prop
  | .bytes b => argBytes cd k = b
  | .fixed b => wordAt cd (32 * k) = b.toList
  | .uint n => argUint cd k = n
  | .addr a => wordAt cd (32 * k) = List.replicate 12 0 ++ a.toList

/-! ### Lemmas -/

@[simp] theorem word_length (n : Nat) : (word n).length = 32 := by simp [word]
@[simp] theorem addrWord_length (a : Addr) : (addrWord a).length = 32 := by simp [addrWord]

theorem word_val {n : Nat} (h : n < 2 ^ 256) : beVal (word n) = n := beVal_beBytes 32 n (by simpa using h)

@[simp] theorem head_length (t : Tok) (off : Nat) : (t.head off).length = 32 := by
  cases t <;> simp [Tok.head]

theorem heads_length (ts : List Tok) (off : Nat) : (heads ts off).length = 32 * ts.length := by
  induction ts generalizing off with
  | nil => rfl
  | cons t ts ih => simp only [heads, List.length_append, head_length, ih, List.length_cons]; omega

theorem heads_at (ts : List Tok) (off k : Nat) (t : Tok) (h : ts[k]? = some t) :
    ∃ pre post, heads ts off = pre ++ (t.head (off + (tails (ts.take k)).length) ++ post) ∧ pre.length = 32 * k := by
  induction ts generalizing off k with
  | nil => simp at h
  | cons u ts ih =>
    cases k with
    | zero =>
      simp only [List.getElem?_cons_zero, Option.some.injEq] at h
      subst h
      exact ⟨[], heads ts (off + u.tail.length), by simp [heads, tails], rfl⟩
    | succ k =>
      simp only [List.getElem?_cons_succ] at h
      obtain ⟨pre, post, h1, h2⟩ := ih (off + u.tail.length) k h
      refine ⟨u.head off ++ pre, post, ?_, ?_⟩
      · simp only [heads, h1, List.take_succ_cons, tails, List.map_cons, List.flatten_cons, List.length_append, List.append_assoc,
          Nat.add_assoc]
      · simp only [List.length_append, head_length, h2]; omega

theorem tails_at (ts : List Tok) (k : Nat) (t : Tok) (h : ts[k]? = some t) :
    ∃ post, tails ts = tails (ts.take k) ++ (t.tail ++ post) := by
  induction ts generalizing k with
  | nil => simp at h
  | cons u ts ih =>
    cases k with
    | zero =>
      simp only [List.getElem?_cons_zero, Option.some.injEq] at h
      subst h
      exact ⟨tails ts, by simp [tails]⟩
    | succ k =>
      simp only [List.getElem?_cons_succ] at h
      obtain ⟨post, h⟩ := ih k h
      refine ⟨post, ?_⟩
      simp only [tails, List.map_cons, List.flatten_cons, List.take_succ_cons, List.append_assoc] at h ⊢
      rw [h]

theorem drop_take_at {pre x post : List UInt8} {n m : Nat} (hn : pre.length = n) (hm : x.length = m) :
    ((pre ++ (x ++ post)).drop n).take m = x := by
  subst hn hm; simp

/-- A token's integer fits a word. -/
def Tok.Fits : Tok → Prop
  | .uint n => n < 2 ^ 256
  | _ => True

theorem encode_reads (sel : List UInt8) (hs : sel.length = 4) (ts : List Tok) (hl : (encode ts).length < 2 ^ 256) (k : Nat) (t : Tok)
    (hf : t.Fits) (h : ts[k]? = some t) : Reads (sel ++ encode ts) k t := by
  obtain ⟨pre, post, h1, h2⟩ := heads_at ts (32 * ts.length) k t h
  have hw : wordAt (sel ++ encode ts) (32 * k) = t.head (32 * ts.length + (tails (ts.take k)).length) := by
    unfold wordAt encode
    rw [h1]
    have : sel ++ ((pre ++ (t.head (32 * ts.length + (tails (ts.take k)).length) ++ post)) ++ tails ts) =
        (sel ++ pre) ++ (t.head (32 * ts.length + (tails (ts.take k)).length) ++ (post ++ tails ts)) := by
      simp only [List.append_assoc]
    rw [this]
    exact drop_take_at (by simp [hs, h2]) (head_length _ _)
  cases t with
  | uint n => exact (congrArg beVal hw).trans (word_val hf)
  | fixed b => exact hw
  | addr a => exact hw
  | bytes b =>
    obtain ⟨post', ht⟩ := tails_at ts k _ h
    have hlen := heads_length ts (32 * ts.length)
    have hoff : 32 * ts.length + (tails (ts.take k)).length < 2 ^ 256 := by
      refine Nat.lt_of_le_of_lt ?_ hl
      unfold encode
      rw [List.length_append, hlen, ht, List.length_append]
      omega
    have hb : b.length < 2 ^ 256 := by
      refine Nat.lt_of_le_of_lt ?_ hl
      unfold encode
      rw [List.length_append, ht]
      simp only [Tok.tail, pad, List.length_append]
      omega
    have ho : argUint (sel ++ encode ts) k = 32 * ts.length + (tails (ts.take k)).length := (congrArg beVal hw).trans (word_val hoff)
    have hcd : sel ++ encode ts = (sel ++ (heads ts (32 * ts.length) ++ tails (ts.take k))) ++ (word b.length ++ (pad b ++ post')) := by
      unfold encode
      rw [ht]
      simp only [Tok.tail, List.append_assoc]
    have hpre : (sel ++ (heads ts (32 * ts.length) ++ tails (ts.take k))).length = 4 + (32 * ts.length + (tails (ts.take k)).length) := by
      simp only [List.length_append, hs, hlen]
    show argBytes (sel ++ encode ts) k = b
    unfold argBytes wordAt
    rw [ho, hcd, drop_take_at hpre (word_length _), word_val hb]
    have : (sel ++ (heads ts (32 * ts.length) ++ tails (ts.take k))) ++ (word b.length ++ (pad b ++ post')) =
        ((sel ++ (heads ts (32 * ts.length) ++ tails (ts.take k))) ++ word b.length) ++
          (b ++ (List.replicate ((32 - b.length % 32) % 32) 0 ++ post')) := by
      simp only [pad, List.append_assoc]
    rw [this]
    exact drop_take_at (by rw [List.length_append, hpre, word_length]) rfl

/-- Tokens of the same shape read at the same place are equal. -/
theorem reads_inj {cd : List UInt8} {k : Nat} {t u : Tok}
    (hk : match t, u with | .bytes _, .bytes _ => True | .fixed _, .fixed _ => True | .uint _, .uint _ => True | .addr _, .addr _ => True | _, _ => False)
    (ht : Reads cd k t) (hu : Reads cd k u) : t = u := by
  cases t <;> cases u <;> simp only at hk
  · rw [show _ = _ from ht.symm.trans hu]
  · rw [toList_inj (ht.symm.trans hu)]
  · rw [show _ = _ from ht.symm.trans hu]
  · rw [toList_inj (List.append_cancel_left (ht.symm.trans hu))]

/-- Tokens made for the same type have the same shape. -/
def SameShape : Tok → Tok → Prop
  | .bytes _, .bytes _ => True
  | .fixed _, .fixed _ => True
  | .uint _, .uint _ => True
  | .addr _, .addr _ => True
  | _, _ => False

theorem toTok_shape {ty : Ty} {v v' : List UInt8} {t u : Tok} (h : toTok ty v = .ok t) (h' : toTok ty v' = .ok u) : SameShape t u := by
  have hu : ∀ {v t}, (match fromDec v with | some n => Out.ok (Tok.uint n) | none => Out.err) = .ok t → ∃ n, t = .uint n := by
    intro v t h
    cases e : fromDec v with
    | none => rw [e] at h; cases h
    | some n => rw [e] at h; injection h with h; exact ⟨n, h.symm⟩
  have hb : ∀ {v t}, (match Lower.toBytes? 32 v with | some b => Out.ok (Tok.fixed b) | none => Out.err) = .ok t → ∃ n, t = .fixed n := by
    intro v t h
    cases e : Lower.toBytes? 32 v with
    | none => rw [e] at h; cases h
    | some n => rw [e] at h; injection h with h; exact ⟨n, h.symm⟩
  have ha : ∀ {v t}, (match Lower.toBytes? 20 v with | some b => Out.ok (Tok.addr b) | none => Out.panic) = .ok t → ∃ n, t = .addr n := by
    intro v t h
    cases e : Lower.toBytes? 20 v with
    | none => rw [e] at h; cases h
    | some n => rw [e] at h; injection h with h; exact ⟨n, h.symm⟩
  cases ty with
  | bytes => injection h with h; injection h' with h'; subst h h'; trivial
  | bytes32 => obtain ⟨_, rfl⟩ := hb h; obtain ⟨_, rfl⟩ := hb h'; trivial
  | address => obtain ⟨_, rfl⟩ := ha h; obtain ⟨_, rfl⟩ := ha h'; trivial
  | uint32 => obtain ⟨_, rfl⟩ := hu h; obtain ⟨_, rfl⟩ := hu h'; trivial
  | uint128 => obtain ⟨_, rfl⟩ := hu h; obtain ⟨_, rfl⟩ := hu h'; trivial
  | uint256 => obtain ⟨_, rfl⟩ := hu h; obtain ⟨_, rfl⟩ := hu h'; trivial

theorem toTok_fits {ty : Ty} {v : List UInt8} {t : Tok} (h : toTok ty v = .ok t) : t.Fits := by
  cases t with
  | uint n =>
    have hu : ∀ {v n}, (match fromDec v with | some n => Out.ok (Tok.uint n) | none => Out.err) = .ok (.uint n) → n < 2 ^ 256 := by
      intro v n h
      unfold fromDec at h
      cases e : digits v 0 with
      | none => rw [e] at h; cases h
      | some m =>
        rw [e] at h
        by_cases c : m < 2 ^ 256
        · simp only [c, if_true] at h; injection h with h; injection h with h; subst h; exact c
        · simp only [c, if_false] at h; cases h
    cases ty with
    | bytes => injection h with h; cases h
    | bytes32 => simp only [toTok] at h; cases e : Lower.toBytes? 32 v <;> rw [e] at h <;> simp at h
    | address => simp only [toTok] at h; cases e : Lower.toBytes? 20 v <;> rw [e] at h <;> simp at h
    | uint32 => exact hu h
    | uint128 => exact hu h
    | uint256 => exact hu h
  | _ => trivial

theorem tokens_cons {p : Param} {ps : List Param} {toks : List Tok} (h : tokens (p :: ps) = .ok toks) :
    ∃ ty t rest, toTy p.1 = some ty ∧ toTok ty p.2 = .ok t ∧ tokens ps = .ok rest ∧ toks = t :: rest := by
  obtain ⟨k, v⟩ := p
  simp only [tokens] at h
  cases e1 : toTy k with
  | none => rw [e1] at h; cases h
  | some ty =>
    rw [e1] at h
    dsimp only at h
    cases e2 : toTok ty v with
    | err => rw [e2] at h; cases h
    | panic => rw [e2] at h; cases h
    | ok t =>
      rw [e2] at h
      dsimp only at h
      cases e3 : tokens ps with
      | err => rw [e3] at h; cases h
      | panic => rw [e3] at h; cases h
      | ok rest => rw [e3] at h; injection h with h; exact ⟨ty, t, rest, rfl, e2, rfl, h.symm⟩

theorem tokens_spec {ps : List Param} {toks : List Tok} (h : tokens ps = .ok toks) :
    toks.length = ps.length ∧ ∀ (k : Nat) p, ps[k]? = some p → ∃ ty t, toTy p.1 = some ty ∧ toTok ty p.2 = .ok t ∧ toks[k]? = some t := by
  induction ps generalizing toks with
  | nil => injection h with h; subst h; exact ⟨rfl, by simp⟩
  | cons p ps ih =>
    obtain ⟨ty, t, rest, h1, h2, h3, rfl⟩ := tokens_cons h
    obtain ⟨i1, i2⟩ := ih h3
    refine ⟨by simp [i1], ?_⟩
    intro k q hq
    cases k with
    | zero => simp only [List.getElem?_cons_zero, Option.some.injEq] at hq; subst hq; exact ⟨ty, t, h1, h2, rfl⟩
    | succ k => exact i2 k q hq

theorem abi_ok {name : List UInt8} {ps : List Param} {cd : List UInt8} (h : abiEncodeFunction keccak validUtf8 name ps = .ok cd) :
    ∃ toks, tokens ps = .ok toks ∧ cd = (keccak (signature name (ps.filterMap (fun p => toTy p.1)))).toList.take 4 ++ encode toks := by
  unfold abiEncodeFunction at h
  cases e : tokens ps with
  | err => rw [e] at h; cases h
  | panic => rw [e] at h; cases h
  | ok toks =>
    rw [e] at h
    dsimp only at h
    by_cases c : validUtf8 name = false
    · rw [if_pos c] at h; cases h
    · rw [if_neg c] at h; injection h with h; exact ⟨toks, rfl, h.symm⟩

theorem take4_length (h : Hash) : (h.toList.take 4).length = 4 := by simp

/-! ### Theorems -/

/-- **C86, the contract reads every argument.** Whenever a call is encoded, the contract that decodes the calldata by the Solidity ABI
reads, for every parameter, the value given. -/
theorem C86_every_argument_is_read (name : List UInt8) (ps : List Param) (cd : List UInt8)
    (h : abiEncodeFunction keccak validUtf8 name ps = .ok cd) (hl : cd.length < 2 ^ 256) (k : Nat) (p : Param) (hp : ps[k]? = some p) :
    ∃ ty t, toTy p.1 = some ty ∧ toTok ty p.2 = .ok t ∧ Reads cd k t := by
  obtain ⟨toks, ht, rfl⟩ := abi_ok keccak validUtf8 h
  obtain ⟨ty, t, h1, h2, h3⟩ := (tokens_spec ht).2 k p hp
  exact ⟨ty, t, h1, h2, encode_reads _ (take4_length _) toks (by rw [List.length_append] at hl; omega) k t (toTok_fits h2) h3⟩

theorem toTy_name {key : List UInt8} {ty : Ty} (h : toTy key = some ty) : key = ty.name := by
  unfold toTy at h
  repeat' first
    | (split at h; rename_i hk; injection h with h; subst h; exact hk)
    | (split at h)
  all_goals first | (injection h with h; subst h; assumption) | cases h

theorem joinNames_eq (l : List Ty) : joinNames l = List.intercalate (ascii ",") (l.map Ty.name) := by
  induction l with
  | nil => rfl
  | cons t l ih =>
    cases l with
    | nil => simp [joinNames, List.intercalate]
    | cons u l =>
      rw [joinNames, ih]
      · simp [List.intercalate, List.intersperse]
      · simp

theorem tokens_names {ps : List Param} {toks : List Tok} (h : tokens ps = .ok toks) :
    (ps.filterMap (fun p => toTy p.1)).map Ty.name = ps.map Prod.fst := by
  induction ps generalizing toks with
  | nil => rfl
  | cons p ps ih =>
    obtain ⟨ty, t, rest, h1, h2, h3, rfl⟩ := tokens_cons h
    rw [List.filterMap_cons, h1]
    simp only [List.map_cons, ih h3, toTy_name h1]

/-- **C86, the function called.** The first four bytes are those of the hash of `name(type,...)`, with exactly the given function name and
the parameters' type names in order. -/
theorem C86_selector (name : List UInt8) (ps : List Param) (cd : List UInt8) (h : abiEncodeFunction keccak validUtf8 name ps = .ok cd) :
    cd.take 4 = (keccak (name ++ ascii "(" ++ List.intercalate (ascii ",") (ps.map Prod.fst) ++ ascii ")")).toList.take 4 := by
  obtain ⟨toks, ht, rfl⟩ := abi_ok keccak validUtf8 h
  rw [List.take_left' (take4_length _)]
  unfold signature
  rw [joinNames_eq, tokens_names ht]
  simp only [List.append_assoc]

/-- **C86, equal calldata means equal arguments.** Two encoded calls with the same parameter types and the same calldata have the same
values: byte strings and addresses are identical and decimal strings denote the same number. -/
theorem C86_calldata_is_injective (name name' : List UInt8) (ps ps' : List Param) (cd : List UInt8)
    (h : abiEncodeFunction keccak validUtf8 name ps = .ok cd) (h' : abiEncodeFunction keccak validUtf8 name' ps' = .ok cd)
    (ht : ps.map Prod.fst = ps'.map Prod.fst) (hl : cd.length < 2 ^ 256) : tokens ps = tokens ps' := by
  obtain ⟨toks, e1, c1⟩ := abi_ok keccak validUtf8 h
  obtain ⟨toks', e2, c2⟩ := abi_ok keccak validUtf8 h'
  rw [e1, e2]
  congr 1
  have hlen : ps.length = ps'.length := by simpa using congrArg List.length ht
  have l1 := (tokens_spec e1).1
  have l2 := (tokens_spec e2).1
  apply List.ext_getElem?
  intro k
  by_cases hk : k < ps.length
  · have hp : ps[k]? = some ps[k] := List.getElem?_eq_getElem hk
    have hp' : ps'[k]? = some (ps'[k]'(hlen ▸ hk)) := List.getElem?_eq_getElem (hlen ▸ hk)
    obtain ⟨ty, t, a1, a2, a3⟩ := (tokens_spec e1).2 k _ hp
    obtain ⟨ty', t', b1, b2, b3⟩ := (tokens_spec e2).2 k _ hp'
    have hf : (ps[k]).1 = (ps'[k]'(hlen ▸ hk)).1 := by
      have := congrArg (fun l => l[k]?) ht
      simpa [List.getElem?_map, hp, hp'] using this
    rw [hf, b1] at a1
    injection a1 with a1
    subst a1
    have r1 : Reads cd k t := by
      rw [c1]; exact encode_reads _ (take4_length _) toks (by rw [c1, List.length_append] at hl; omega) k t (toTok_fits a2) a3
    have r2 : Reads cd k t' := by
      rw [c2]; exact encode_reads _ (take4_length _) toks' (by rw [c2, List.length_append] at hl; omega) k t' (toTok_fits b2) b3
    have : t = t' := reads_inj (by have := toTok_shape a2 b2; cases t <;> cases t' <;> simp [SameShape] at this ⊢) r1 r2
    rw [a3, b3, this]
  · rw [List.getElem?_eq_none (by omega), List.getElem?_eq_none (by omega)]

/-! ### The runtime's requests -/

theorem fromDec_decimal (n : Nat) (h : n < 2 ^ 256) : fromDec (ascii (toString n)) = some n := by
  have hl : (toString n).toList = Nat.toDigits 10 n := Nat.toList_repr
  have hd : ∀ c ∈ Nat.toDigits 10 n, c.isDigit = true := fun c hc => Nat.isDigit_of_mem_toDigits (by decide) (by decide) hc
  have hsp := digits_spec _ hd 0
  rw [Nat.ofDigitChars_ten_toDigits] at hsp
  unfold fromDec ascii
  rw [hl, hsp]
  simp only [h, if_true]

/-- The Solidity signature of the contract function behind each runtime request. -/
def solidity : Call → List UInt8
  | .publishRoot .. => ascii "publishRoot(bytes32,uint256,uint32,bytes)"
  | .triggerGrowth .. => ascii "triggerGrowth(uint256,uint256,uint32,uint256,uint32,bytes)"
  | .addAuthor .. => ascii "addAuthor(bytes,bytes32,uint256,uint32,bytes)"
  | .removeAuthor .. => ascii "removeAuthor(bytes32,bytes,uint256,uint32,bytes)"

/-- What the contract reads: the values of the request, then expiry, transaction id and confirmations. -/
def Sees (cd : List UInt8) (e i : Nat) (confs : List UInt8) : Call → Prop
  | .publishRoot r => wordAt cd 0 = r.toList ∧ argUint cd 1 = e ∧ argUint cd 2 = i ∧ argBytes cd 3 = confs
  | .triggerGrowth r a p => argUint cd 0 = r ∧ argUint cd 1 = a ∧ argUint cd 2 = p ∧ argUint cd 3 = e ∧ argUint cd 4 = i ∧
      argBytes cd 5 = confs
  | .addAuthor k t => argBytes cd 0 = k.toList ∧ wordAt cd 32 = t.toList ∧ argUint cd 2 = e ∧ argUint cd 3 = i ∧ argBytes cd 4 = confs
  | .removeAuthor t k => wordAt cd 0 = t.toList ∧ argBytes cd 1 = k.toList ∧ argUint cd 2 = e ∧ argUint cd 3 = i ∧ argBytes cd 4 = confs

/-- The tokens of a runtime request. -/
def callTokens (c : Call) (e i : Nat) (confs : List UInt8) : List Tok :=
  match c with
  | .publishRoot r => [.fixed r, .uint e, .uint i, .bytes confs]
  | .triggerGrowth r a p => [.uint r, .uint a, .uint p, .uint e, .uint i, .bytes confs]
  | .addAuthor k t => [.bytes k.toList, .fixed t, .uint e, .uint i, .bytes confs]
  | .removeAuthor t k => [.fixed t, .bytes k.toList, .uint e, .uint i, .bytes confs]

theorem ty_bytes : toTy (ascii "bytes") = some .bytes := by decide
theorem ty_bytes32 : toTy (ascii "bytes32") = some .bytes32 := by decide
theorem ty_uint32 : toTy (ascii "uint32") = some .uint32 := by decide
theorem ty_uint256 : toTy (ascii "uint256") = some .uint256 := by decide

theorem call_tokens (c : Call) (e i : Nat) (confs : List UInt8) (hc : c.InRange) (he : e < 2 ^ 64) (hi : i < 2 ^ 32) :
    tokens (c.extended e i ++ [(ascii "bytes", confs)]) = .ok (callTokens c e i confs) := by
  have pe : fromDec (ascii e.repr) = some e := fromDec_decimal e (Eip712.lt64 he)
  have pi : fromDec (ascii i.repr) = some i := fromDec_decimal i (Eip712.lt32 hi)
  cases c with
  | publishRoot r =>
    simp [tokens, Call.extended, Call.params, callTokens, ty_bytes, ty_bytes32, ty_uint32, ty_uint256, toTok, pe, pi, toBytes?_toList]
  | triggerGrowth r a p =>
    have p1 : fromDec (ascii r.repr) = some r := fromDec_decimal r (Eip712.lt128 hc.1)
    have p2 : fromDec (ascii a.repr) = some a := fromDec_decimal a (Eip712.lt128 hc.2.1)
    have p3 : fromDec (ascii p.repr) = some p := fromDec_decimal p (Eip712.lt32 hc.2.2)
    simp [tokens, Call.extended, Call.params, callTokens, ty_bytes, ty_uint32, ty_uint256, toTok, pe, pi, p1, p2, p3]
  | addAuthor k t =>
    simp [tokens, Call.extended, Call.params, callTokens, ty_bytes, ty_bytes32, ty_uint32, ty_uint256, toTok, pe, pi, toBytes?_toList]
  | removeAuthor t k =>
    simp [tokens, Call.extended, Call.params, callTokens, ty_bytes, ty_bytes32, ty_uint32, ty_uint256, toTok, pe, pi, toBytes?_toList]

theorem encodeConfirmations_length (confs : List (Bytes 65)) : (encodeConfirmations confs).length = 65 * confs.length := by
  induction confs with
  | nil => rfl
  | cons c cs ih => simp only [encodeConfirmations, List.map_cons, List.flatten_cons, List.length_append, Vector.length_toList, List.length_cons] at ih ⊢; omega

theorem tok_tail_length (t : Tok) : t.tail.length ≤ 63 + (match t with | .bytes b => b.length | _ => 0) := by
  cases t with
  | bytes b => simp only [Tok.tail, pad, List.length_append, word_length, List.length_replicate]; omega
  | _ => simp [Tok.tail]

theorem encode_length (ts : List Tok) : (encode ts).length = 32 * ts.length + (tails ts).length := by
  simp [encode, heads_length]

theorem call_length (c : Call) (e i : Nat) (confs : List UInt8) (h : confs.length ≤ 6500) : (encode (callTokens c e i confs)).length < 2 ^ 256 := by
  have hb := tok_tail_length (.bytes confs)
  simp only at hb
  have : (encode (callTokens c e i confs)).length ≤ 10000 := by
    rw [encode_length]
    cases c with
    | publishRoot r => simp [callTokens, tails] at hb ⊢; simp [Tok.tail] at hb ⊢; omega
    | triggerGrowth r a p => simp [callTokens, tails] at hb ⊢; simp [Tok.tail] at hb ⊢; omega
    | addAuthor k t =>
      have hk := tok_tail_length (.bytes k.toList)
      simp [callTokens, tails] at hb hk ⊢; simp [Tok.tail] at hb hk ⊢; omega
    | removeAuthor t k =>
      have hk := tok_tail_length (.bytes k.toList)
      simp [callTokens, tails] at hb hk ⊢; simp [Tok.tail] at hb hk ⊢; omega
  exact Nat.lt_of_le_of_lt this (by decide)

/-- **C86, the contract sees the confirmed request.** For every runtime request, expiry, transaction id and list of up to 100
confirmations, the calldata can be generated, starts with the selector of the intended contract function, and the contract reads from it
exactly the values authors signed and the concatenated confirmations. -/
theorem C86_contract_sees_the_request (c : Call) (e i : Nat) (confs : List (Bytes 65)) (hc : c.InRange) (he : e < 2 ^ 64) (hi : i < 2 ^ 32)
    (hn : confs.length ≤ 100) (hu : validUtf8 c.name = true) :
    ∃ cd, sendCalldata keccak validUtf8 c.name (c.extended e i) confs = .ok cd ∧ cd.take 4 = (keccak (solidity c)).toList.take 4 ∧
      Sees cd e i (encodeConfirmations confs) c := by
  have ht := call_tokens c e i (encodeConfirmations confs) hc he hi
  have hsig : signature c.name ((c.extended e i ++ [(ascii "bytes", encodeConfirmations confs)]).filterMap (fun p => toTy p.1)) = solidity c := by
    cases c <;> simp only [Call.extended, Call.params, List.cons_append, List.nil_append, List.filterMap_cons, List.filterMap_nil, ty_bytes,
      ty_bytes32, ty_uint32, ty_uint256, Call.name, solidity] <;> decide
  refine ⟨(keccak (solidity c)).toList.take 4 ++ encode (callTokens c e i (encodeConfirmations confs)), ?_, ?_, ?_⟩
  · unfold sendCalldata abiEncodeFunction
    rw [ht]
    dsimp only
    rw [if_neg (by simp [hu]), hsig]
  · exact List.take_left' (take4_length _)
  · have hl := call_length c e i (encodeConfirmations confs) (by rw [encodeConfirmations_length]; omega)
    have rd := fun k t (hf : Tok.Fits t) (h : (callTokens c e i (encodeConfirmations confs))[k]? = some t) =>
      encode_reads ((keccak (solidity c)).toList.take 4) (take4_length _) _ hl k t hf h
    have he := Eip712.lt64 he
    have hi := Eip712.lt32 hi
    cases c with
    | publishRoot r =>
      exact ⟨rd 0 (.fixed r) trivial rfl, rd 1 (.uint e) he rfl, rd 2 (.uint i) hi rfl, rd 3 (.bytes _) trivial rfl⟩
    | triggerGrowth r a p =>
      exact ⟨rd 0 (.uint r) (Eip712.lt128 hc.1) rfl, rd 1 (.uint a) (Eip712.lt128 hc.2.1) rfl, rd 2 (.uint p) (Eip712.lt32 hc.2.2) rfl,
        rd 3 (.uint e) he rfl, rd 4 (.uint i) hi rfl, rd 5 (.bytes _) trivial rfl⟩
    | addAuthor k t =>
      exact ⟨rd 0 (.bytes _) trivial rfl, rd 1 (.fixed t) trivial rfl, rd 2 (.uint e) he rfl, rd 3 (.uint i) hi rfl, rd 4 (.bytes _) trivial rfl⟩
    | removeAuthor t k =>
      exact ⟨rd 0 (.fixed t) trivial rfl, rd 1 (.bytes _) trivial rfl, rd 2 (.uint e) he rfl, rd 3 (.uint i) hi rfl, rd 4 (.bytes _) trivial rfl⟩

/-- **C86, confirmations.** The confirmations are sent one after the other in the order they were recorded, 65 bytes each. -/
theorem C86_confirmations_in_order (confs : List (Bytes 65)) : (encodeConfirmations confs).length = 65 * confs.length ∧
    ∀ k (hk : k < confs.length), ((encodeConfirmations confs).drop (65 * k)).take 65 = (confs[k]).toList := by
  refine ⟨encodeConfirmations_length confs, ?_⟩
  induction confs with
  | nil => intro k hk; simp at hk
  | cons c cs ih =>
    intro k hk
    have hc : encodeConfirmations (c :: cs) = c.toList ++ encodeConfirmations cs := rfl
    rw [hc]
    cases k with
    | zero => simp
    | succ k =>
      have : 65 * (k + 1) = c.toList.length + 65 * k := by simp only [Vector.length_toList]; omega
      rw [this, ← List.drop_drop, List.drop_left]
      exact ih k (by simpa using hk)

/-- **C86, the lower proof.** The proof handed to the token manager is the packed lower followed by the confirmations: the first 116
bytes are the lower, from which every field is read back. -/
theorem C86_lower_proof (d : Lower.LowerData) (confs : List (Bytes 65)) (ha : d.amount < 2 ^ 128) (hl : d.lowerId < 2 ^ 32)
    (ht : d.t2Timestamp < 2 ^ 64) : let proof := encodedLowerProof (Lower.concatLowerData d) confs
    Lower.decodeLowerData (proof.take 116) = some d ∧ proof.drop 116 = encodeConfirmations confs ∧ proof.length = 116 + 65 * confs.length := by
  have h := TokenManager.C08_roundtrip d ha hl ht
  refine ⟨?_, ?_, ?_⟩
  · show Lower.decodeLowerData ((Lower.concatLowerData d ++ encodeConfirmations confs).take 116) = some d
    rw [List.take_left' h.1]; exact h.2
  · exact List.drop_left' h.1
  · show (Lower.concatLowerData d ++ encodeConfirmations confs).length = _
    rw [List.length_append, h.1, encodeConfirmations_length]

/-- **C86, corroboration query.** The question asked of the contract carries the transaction id and expiry. -/
theorem C86_corroborate_query (e i : Nat) (he : e < 2 ^ 64) (hi : i < 2 ^ 32) (hu : validUtf8 (ascii "corroborate") = true) :
    ∃ cd, corroborateCalldata keccak validUtf8 i e = .ok cd ∧ cd.take 4 = (keccak (ascii "corroborate(uint32,uint256)")).toList.take 4 ∧
      argUint cd 0 = i ∧ argUint cd 1 = e := by
  have pe : fromDec (ascii e.repr) = some e := fromDec_decimal e (Eip712.lt64 he)
  have pi : fromDec (ascii i.repr) = some i := fromDec_decimal i (Eip712.lt32 hi)
  have ht : tokens [(ascii "uint32", ascii (toString i)), (ascii "uint256", ascii (toString e))] = .ok [.uint i, .uint e] := by
    simp [tokens, ty_uint32, ty_uint256, toTok, pe, pi]
  have hsig : signature (ascii "corroborate") ([(ascii "uint32", ascii (toString i)), (ascii "uint256", ascii (toString e))].filterMap
      (fun p => toTy p.1)) = ascii "corroborate(uint32,uint256)" := by
    simp only [List.filterMap_cons, List.filterMap_nil, ty_uint32, ty_uint256]
    decide
  refine ⟨(keccak (ascii "corroborate(uint32,uint256)")).toList.take 4 ++ encode [.uint i, .uint e], ?_, List.take_left' (take4_length _), ?_, ?_⟩
  · unfold corroborateCalldata abiEncodeFunction
    rw [ht]
    dsimp only
    rw [if_neg (by simp [hu]), hsig]
  · exact encode_reads _ (take4_length _) _ (by rw [encode_length]; simp [tails, Tok.tail]) 0 (.uint i) (Eip712.lt32 hi) rfl
  · exact encode_reads _ (take4_length _) _ (by rw [encode_length]; simp [tails, Tok.tail]) 1 (.uint e) (Eip712.lt64 he) rfl

/-! ### Answers -/

theorem hexVal_digit (n : Nat) (h : n < 16) : hexVal (hexDigit n) = some n := by
  have : ∀ n : Fin 16, hexVal (hexDigit n) = some n.1 := by decide
  exact this ⟨n, h⟩

theorem hexDecode_encode (bs : List UInt8) : hexDecode (hexEncode bs) = some bs := by
  induction bs with
  | nil => rfl
  | cons b bs ih =>
    have hb : b.toNat < 256 := b.toNat_lt
    have h1 := hexVal_digit (b.toNat / 16) (by omega)
    have h2 := hexVal_digit (b.toNat % 16) (by omega)
    have h3 : UInt8.ofNat (16 * (b.toNat / 16) + b.toNat % 16) = b := by
      rw [Nat.div_add_mod]; simp
    simp only [hexEncode, hexDecode, h1, h2, ih, Option.bind_eq_bind, Option.bind_some, h3]

theorem hexEncode_inj {a b : List UInt8} (h : hexEncode a = hexEncode b) : a = b := by
  have := hexDecode_encode a
  rw [h, hexDecode_encode b] at this
  exact (Option.some.inj this).symm

theorem hexEncode_length (a : List UInt8) : (hexEncode a).length = 2 * a.length := by
  induction a with
  | nil => rfl
  | cons b bs ih => simp only [hexEncode, List.length_cons, ih]; omega

/-- **C86, transaction hash.** The hash Ethereum reports for a sent transaction is read back exactly. -/
theorem C86_tx_hash_is_read (h : Hash) : processTxHash (hexEncode h.toList) = some h := by
  unfold processTxHash
  rw [if_neg (by rw [hexEncode_length]; simp), hexDecode_encode]
  exact toBytes?_toList h

/-- C86: nothing but 64 hex digits is read as a transaction hash. -/
theorem C86_only_hashes_are_read (r : List UInt8) (h : Hash) (hr : processTxHash r = some h) :
    r.length = 64 ∧ hexDecode r = some h.toList := by
  unfold processTxHash at hr
  by_cases c : r.length ≠ 64
  · rw [if_pos c] at hr; cases hr
  rw [if_neg c] at hr
  refine ⟨by simpa using c, ?_⟩
  cases hd : hexDecode r with
  | none => rw [hd] at hr; cases hr
  | some b =>
    rw [hd] at hr
    dsimp only at hr
    unfold Lower.toBytes? at hr
    split at hr
    · injection hr with hr
      subst hr
      simp
    · cases hr

/-- **C86, status.** The contract's answer, an `int8` sign-extended to a word, is read back exactly. -/
theorem C86_status_is_read (v : Int) (h1 : -128 ≤ v) (h2 : v < 128) :
    processCorroborateResult (hexEncode (word (v % 2 ^ 256).toNat)) = some v := by
  unfold processCorroborateResult
  rw [hexDecode_encode]
  dsimp only
  rw [if_neg (by simp)]
  have hlast : (word (v % 2 ^ 256).toNat).getD 31 0 = UInt8.ofNat ((v % 2 ^ 256).toNat % 256) := by
    generalize (v % 2 ^ 256).toNat = n
    unfold word beBytes
    simp [leBytes]
  rw [hlast]
  have : (UInt8.ofNat ((v % 2 ^ 256).toNat % 256)).toNat = (v % 256).toNat := by
    simp only [UInt8.toNat_ofNat']
    omega
  simp only [this]
  congr 1
  split <;> omega

/-- **C86, what counts as a valid transaction hash.** A recorded hash is reported valid exactly when it is set and Ethereum's call data for it
is, byte for byte, the calldata of this request with these confirmations; an unset hash is always reported invalid. -/
theorem C86_hash_valid_iff (h : Hash) (query : Option (List UInt8 × Nat)) (expected : Out (List UInt8)) (n : Option Nat) :
    checkTxHash h query expected = some (true, n) ↔
      h ≠ Vector.replicate 32 0 ∧ ∃ cd m, query = some (cd, m) ∧ expected = .ok cd ∧ n = some m := by
  unfold checkTxHash
  by_cases hz : h ≠ Vector.replicate 32 0
  · rw [if_pos hz]
    cases query with
    | none => simp
    | some q =>
      obtain ⟨cd, m⟩ := q
      cases expected with
      | err => simp
      | panic => simp
      | ok e =>
        simp only [Option.some.injEq, Prod.mk.injEq, decide_eq_true_eq, hz, ne_eq, not_false_eq_true, true_and]
        constructor
        · rintro ⟨a, b⟩; exact ⟨cd, m, ⟨rfl, rfl⟩, by rw [hexEncode_inj a], b.symm⟩
        · rintro ⟨cd', m', ⟨rfl, rfl⟩, a, b⟩; injection a with a; exact ⟨by rw [a], b.symm⟩
  · rw [if_neg hz]; simp [hz]

/-- **C86, what a corroboration says.** The worker reports success or failure only if the contract said exactly that (1 or -1), and reports
the hash valid only if Ethereum's call data is that of the request and has at least the minimum number of confirmations. -/
theorem C86_corroboration_says (minConfs : Nat) (view : Option Int) (h : Hash) (query : Option (List UInt8 × Nat))
    (expected : Out (List UInt8)) (status : Option Bool) (valid : Option Bool)
    (hc : corroborate minConfs view h query expected = some (status, valid)) :
    (status = some true → view = some 1) ∧ (status = some false → view = some (-1)) ∧
      (valid = some true ↔ status.isSome = true ∧ h ≠ Vector.replicate 32 0 ∧ ∃ cd m, query = some (cd, m) ∧ expected = .ok cd ∧ minConfs ≤ m) ∧
      (status.isSome = valid.isSome) ∧ (view = some 0 → status = none) := by
  unfold corroborate checkTxStatus at hc
  cases view with
  | none => simp at hc
  | some r =>
    have key : ∀ st : Bool, (match checkTxHash h query expected with
        | none => none
        | some (v, confs) => if v = true ∧ confs.getD 0 < minConfs then some (none, none) else some (some st, some v)) = some (status, valid) →
        (status = none ∧ valid = none ∧ ∃ n, checkTxHash h query expected = some (true, n) ∧ n.getD 0 < minConfs) ∨
        (status = some st ∧ ∃ v n, valid = some v ∧ checkTxHash h query expected = some (v, n) ∧ (v = true → minConfs ≤ n.getD 0)) := by
      intro st hk
      cases e : checkTxHash h query expected with
      | none => rw [e] at hk; simp at hk
      | some q =>
        obtain ⟨v, n⟩ := q
        rw [e] at hk
        dsimp only at hk
        by_cases c : v = true ∧ n.getD 0 < minConfs
        · rw [if_pos c] at hk
          simp only [Option.some.injEq, Prod.mk.injEq] at hk
          exact .inl ⟨hk.1.symm, hk.2.symm, n, by rw [c.1], c.2⟩
        · rw [if_neg c] at hk
          simp only [Option.some.injEq, Prod.mk.injEq] at hk
          refine .inr ⟨hk.1.symm, v, n, hk.2.symm, rfl, fun hv => ?_⟩
          by_cases l : n.getD 0 < minConfs
          · exact absurd ⟨hv, l⟩ c
          · omega
    have fin : ∀ st : Bool, ((status = none ∧ valid = none ∧ ∃ n, checkTxHash h query expected = some (true, n) ∧ n.getD 0 < minConfs) ∨
        (status = some st ∧ ∃ v n, valid = some v ∧ checkTxHash h query expected = some (v, n) ∧ (v = true → minConfs ≤ n.getD 0))) →
        (valid = some true ↔ status.isSome = true ∧ h ≠ Vector.replicate 32 0 ∧ ∃ cd m, query = some (cd, m) ∧ expected = .ok cd ∧ minConfs ≤ m) ∧
        status.isSome = valid.isSome := by
      intro st hk
      rcases hk with ⟨rfl, rfl, n, _, _⟩ | ⟨rfl, v, n, rfl, e, hm⟩
      · simp
      · refine ⟨?_, rfl⟩
        constructor
        · intro hv
          injection hv with hv
          subst hv
          obtain ⟨a, cd, m, b, c, d⟩ := (C86_hash_valid_iff h query expected n).mp e
          refine ⟨rfl, a, cd, m, b, c, ?_⟩
          have := hm rfl
          rw [d] at this
          exact this
        · rintro ⟨_, a, cd, m, b, c, _⟩
          have := (C86_hash_valid_iff h query expected (some m)).mpr ⟨a, cd, m, b, c, rfl⟩
          rw [e] at this
          injection this with this
          injection this with this _
          rw [this]
    by_cases r0 : r = 0
    · simp only [r0, if_true, Option.some.injEq, Prod.mk.injEq] at hc
      obtain ⟨rfl, rfl⟩ := hc
      simp
    by_cases r1 : r = 1
    · simp only [r1, if_true] at hc
      have hk := key true hc
      obtain ⟨f1, f2⟩ := fin true hk
      subst r1
      refine ⟨fun _ => rfl, fun hf => ?_, f1, f2, fun h => absurd (Option.some.inj h) r0⟩
      rcases hk with ⟨hs, _⟩ | ⟨hs, _⟩ <;> rw [hs] at hf <;> simp at hf
    by_cases r2 : r = -1
    · simp only [r2] at hc
      have hk := key false hc
      obtain ⟨f1, f2⟩ := fin false hk
      subst r2
      refine ⟨fun hf => ?_, fun _ => rfl, f1, f2, fun h => absurd (Option.some.inj h) r0⟩
      rcases hk with ⟨hs, _⟩ | ⟨hs, _⟩ <;> rw [hs] at hf <;> simp at hf
    · simp only [r0, r1, r2, if_false] at hc
      cases hc

/-- **C86, an answer is always used.** Conversely, when the contract says success or failure and the transaction's call data can be queried (or no
hash was recorded), the worker reports that status, except while a valid transaction has too few confirmations. -/
theorem C86_corroboration_reported (minConfs : Nat) (status : Bool) (h : Hash) (query : Option (List UInt8 × Nat)) (e : List UInt8)
    (hq : h = Vector.replicate 32 0 ∨ ∃ cd m, query = some (cd, m) ∧ (cd = e → minConfs ≤ m)) :
    ∃ v, corroborate minConfs (some (if status then 1 else -1)) h query (.ok e) = some (some status, some v) := by
  have hs : checkTxStatus (some (if status then 1 else -1)) = some (some status) := by cases status <;> rfl
  unfold corroborate
  rw [hs]
  dsimp only
  unfold checkTxHash
  by_cases hz : h ≠ Vector.replicate 32 0
  · rw [if_pos hz]
    rcases hq with hq | ⟨cd, m, rfl, hm⟩
    · exact absurd hq hz
    · dsimp only
      by_cases hx : hexEncode e = hexEncode cd
      · have hle := hm (hexEncode_inj hx.symm)
        refine ⟨true, ?_⟩
        have : ¬ m < minConfs := by omega
        simp [hx, this]
      · exact ⟨false, by simp [hx]⟩
  · rw [if_neg hz]; exact ⟨false, by simp⟩

/-! ### Examples -/

example : ∃ cd, sendCalldata (fun _ => Vector.replicate 32 1) (fun _ => true) (Call.publishRoot (Vector.replicate 32 9)).name
    ((Call.publishRoot (Vector.replicate 32 9)).extended 1800 5) [Vector.replicate 65 7, Vector.replicate 65 8] = .ok cd ∧
    cd.length = 4 + 32 * 5 + 160 ∧ argUint cd 1 = 1800 ∧ argBytes cd 3 = List.replicate 65 7 ++ List.replicate 65 8 := by
  refine ⟨_, rfl, ?_⟩
  decide +kernel

example : corroborate 20 (some 1) (Vector.replicate 32 4) (some ([1, 2], 25)) (.ok [1, 2]) = some (some true, some true) ∧
    corroborate 20 (some 1) (Vector.replicate 32 4) (some ([1, 2], 5)) (.ok [1, 2]) = some (none, none) ∧
    corroborate 20 (some (-1)) (Vector.replicate 32 0) none (.ok [1, 2]) = some (some false, some false) ∧
    corroborate 20 (some (-1)) (Vector.replicate 32 4) (some ([1, 3], 5)) (.ok [1, 2]) = some (some false, some false) := by decide +kernel

end Verif.Calldata
