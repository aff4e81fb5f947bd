import Verif.Model.Eip712
import Verif.Lemmas.Encoding
import Verif.Props.Encoding
import Verif.Props.EthBridgeSetup

/-!
# C85: what authors sign for Ethereum binds the whole request
-/

namespace Verif.Eip712

open Verif.TokenManager (toBytes?_toList C08_roundtrip pow128_eq pow64_eq pow32_eq)

variable (keccak : List UInt8 → Hash) (lossy : List UInt8 → List UInt8)

/-! ### Specification -/

/-- The values fit the Solidity types of the struct's fields. -/
def Msg.InRange : Msg → Prop
  | .publishRoot _ e i => e < 2 ^ 256 ∧ i < 2 ^ 32
  | .triggerGrowth r a p e i => r < 2 ^ 256 ∧ a < 2 ^ 256 ∧ p < 2 ^ 32 ∧ e < 2 ^ 256 ∧ i < 2 ^ 32
  | .addAuthor _ _ e i => e < 2 ^ 256 ∧ i < 2 ^ 32
  | .removeAuthor _ _ e i => e < 2 ^ 256 ∧ i < 2 ^ 32
  | .lower d => d.amount < 2 ^ 256 ∧ d.lowerId < 2 ^ 32 ∧ d.t2Timestamp < 2 ^ 64

/-- The strings that are hashed while computing the hash authors sign for `m`. -/
def hashed (i : Instance) (m : Msg) : List (List UInt8) :=
  [ [0x19, 0x01] ++ ((keccak (domainData keccak lossy i)).toList ++ (m.structHash keccak).toList),
    domainData keccak lossy i, lossy i.name, lossy i.version, domainType,
    (keccak m.typeString).toList ++ m.data keccak, m.typeString ] ++
  (match m with
   | .addAuthor k .. => [k]
   | .removeAuthor _ k .. => [k]
   | _ => [])

/-- Two different strings, one from each list, with the same hash. -/
def Collision (xs ys : List (List UInt8)) : Prop := ∃ x ∈ xs, ∃ y ∈ ys, x ≠ y ∧ keccak x = keccak y

/-! ### Lemmas -/

theorem eq_or_collision {xs ys : List (List UInt8)} {x y : List UInt8} (hx : x ∈ xs) (hy : y ∈ ys)
    (h : keccak x = keccak y) : Collision keccak xs ys ∨ x = y := by
  by_cases e : x = y
  · exact .inr e
  · exact .inl ⟨x, hx, y, hy, e, h⟩

theorem word_split {a b : Nat} {x y : List UInt8} (ha : a < 2 ^ 256) (hb : b < 2 ^ 256) (h : word a ++ x = word b ++ y) :
    a = b ∧ x = y := be_split (k := 32) (by simpa using ha) (by simpa using hb) h

theorem word_inj {a b : Nat} (ha : a < 2 ^ 256) (hb : b < 2 ^ 256) (h : word a = word b) : a = b :=
  beBytes_inj (k := 32) (by simpa using ha) (by simpa using hb) h

theorem addr_split {a b : Addr} {x y : List UInt8} (h : addrWord a ++ x = addrWord b ++ y) : a = b ∧ x = y := by
  unfold addrWord at h
  rw [List.append_assoc, List.append_assoc] at h
  exact vec_split (append_split (by simp) h).2

theorem toList_inj {n : Nat} {a b : Bytes n} (h : a.toList = b.toList) : a = b := by
  have : a.toList ++ [] = b.toList ++ [] := by rw [h]
  exact (vec_split this).1

theorem lt32 {a : Nat} (h : a < 2 ^ 32) : a < 2 ^ 256 := Nat.lt_of_lt_of_le h (Nat.pow_le_pow_right (by decide) (by decide))
theorem lt64 {a : Nat} (h : a < 2 ^ 64) : a < 2 ^ 256 := Nat.lt_of_lt_of_le h (Nat.pow_le_pow_right (by decide) (by decide))
theorem lt128 {a : Nat} (h : a < 2 ^ 128) : a < 2 ^ 256 := Nat.lt_of_lt_of_le h (Nat.pow_le_pow_right (by decide) (by decide))

theorem data_inj {m n : Msg} {i j : Instance} (hm : m.InRange) (hn : n.InRange) (ht : m.typeString = n.typeString)
    (h : m.data keccak = n.data keccak) : Collision keccak (hashed keccak lossy i m) (hashed keccak lossy j n) ∨ m = n := by
  cases m <;> cases n <;>
    first
    | (simp only [Msg.typeString] at ht; exact absurd ht (by decide +kernel))
    | skip
  case publishRoot.publishRoot r e x r' e' x' =>
    simp only [Msg.data] at h
    obtain ⟨h1, h⟩ := vec_split h
    obtain ⟨h2, h⟩ := word_split hm.1 hn.1 h
    have h3 := word_inj (lt32 hm.2) (lt32 hn.2) h
    subst h1 h2 h3; exact .inr rfl
  case triggerGrowth.triggerGrowth r a p e x r' a' p' e' x' =>
    simp only [Msg.data] at h
    obtain ⟨a1, a2, a3, a4, a5⟩ := hm
    obtain ⟨b1, b2, b3, b4, b5⟩ := hn
    obtain ⟨h1, h⟩ := word_split a1 b1 h
    obtain ⟨h2, h⟩ := word_split a2 b2 h
    obtain ⟨h3, h⟩ := word_split (lt32 a3) (lt32 b3) h
    obtain ⟨h4, h⟩ := word_split a4 b4 h
    have h5 := word_inj (lt32 a5) (lt32 b5) h
    subst h1 h2 h3 h4 h5; exact .inr rfl
  case addAuthor.addAuthor k t e x k' t' e' x' =>
    simp only [Msg.data] at h
    obtain ⟨h1, h⟩ := vec_split h
    obtain ⟨h2, h⟩ := vec_split h
    obtain ⟨h3, h⟩ := word_split hm.1 hn.1 h
    have h4 := word_inj (lt32 hm.2) (lt32 hn.2) h
    rcases eq_or_collision keccak (xs := hashed keccak lossy i (.addAuthor k t e x))
      (ys := hashed keccak lossy j (.addAuthor k' t' e' x')) (by simp [hashed]) (by simp [hashed]) h1 with c | h1
    · exact .inl c
    · subst h1 h2 h3 h4; exact .inr rfl
  case removeAuthor.removeAuthor t k e x t' k' e' x' =>
    simp only [Msg.data] at h
    obtain ⟨h2, h⟩ := vec_split h
    obtain ⟨h1, h⟩ := vec_split h
    obtain ⟨h3, h⟩ := word_split hm.1 hn.1 h
    have h4 := word_inj (lt32 hm.2) (lt32 hn.2) h
    rcases eq_or_collision keccak (xs := hashed keccak lossy i (.removeAuthor t k e x))
      (ys := hashed keccak lossy j (.removeAuthor t' k' e' x')) (by simp [hashed]) (by simp [hashed]) h1 with c | h1
    · exact .inl c
    · subst h1 h2 h3 h4; exact .inr rfl
  case lower.lower d d' =>
    simp only [Msg.data] at h
    obtain ⟨a1, a2, a3⟩ := hm
    obtain ⟨b1, b2, b3⟩ := hn
    obtain ⟨h1, h⟩ := addr_split h
    obtain ⟨h2, h⟩ := word_split a1 b1 h
    obtain ⟨h3, h⟩ := addr_split h
    obtain ⟨h4, h⟩ := word_split (lt32 a2) (lt32 b2) h
    obtain ⟨h5, h⟩ := vec_split h
    have h6 := word_inj (lt64 a3) (lt64 b3) h
    cases d; cases d'
    simp only at h1 h2 h3 h4 h5 h6
    subst h1 h2 h3 h4 h5 h6; exact .inr rfl

/-! ### Theorems -/

/-- **C85, one signature, one message.** If the hashes authors sign for two messages are equal, then the messages are the
same struct with the same values, meant for the same chain, contract, domain name and domain version - or else two of the strings hashed
on the way are a concrete Keccak collision. -/
theorem C85_message_is_bound (i j : Instance) (m n : Msg) (hi : i.chainId < 2 ^ 64) (hj : j.chainId < 2 ^ 64)
    (hm : m.InRange) (hn : n.InRange) (h : signingHash keccak lossy i m = signingHash keccak lossy j n) :
    Collision keccak (hashed keccak lossy i m) (hashed keccak lossy j n) ∨
      (m = n ∧ i.chainId = j.chainId ∧ i.contract = j.contract ∧ lossy i.name = lossy j.name ∧
        lossy i.version = lossy j.version) := by
  have mem : ∀ k (hk : k < 7), ∀ i : Instance, ∀ m : Msg,
      (hashed keccak lossy i m)[k]'(by simp only [hashed, List.length_append, List.length_cons]; omega) ∈ hashed keccak lossy i m :=
    fun k hk i m => List.getElem_mem _
  rcases eq_or_collision keccak (mem 0 (by decide) i m) (mem 0 (by decide) j n) h with c | h
  · exact .inl c
  have h := List.append_cancel_left (show _ ++ _ = _ ++ _ from h)
  obtain ⟨hd, hs⟩ := vec_split h
  have hs := toList_inj hs
  rcases eq_or_collision keccak (mem 1 (by decide) i m) (mem 1 (by decide) j n) hd with c | hd
  · exact .inl c
  rcases eq_or_collision keccak (mem 5 (by decide) i m) (mem 5 (by decide) j n) hs with c | hs
  · exact .inl c
  have hs : (keccak m.typeString).toList ++ m.data keccak = (keccak n.typeString).toList ++ n.data keccak := hs
  have hd : domainData keccak lossy i = domainData keccak lossy j := hd
  obtain ⟨ht, hdat⟩ := vec_split hs
  rcases eq_or_collision keccak (mem 6 (by decide) i m) (mem 6 (by decide) j n) ht with c | ht
  · exact .inl c
  rcases data_inj keccak lossy (i := i) (j := j) hm hn ht hdat with c | hmn
  · exact .inl c
  unfold domainData at hd
  obtain ⟨_, hd⟩ := vec_split hd
  obtain ⟨hname, hd⟩ := vec_split hd
  obtain ⟨hver, hd⟩ := vec_split hd
  obtain ⟨hc, hd⟩ := word_split (lt64 hi) (lt64 hj) hd
  have ha := (addr_split (x := []) (y := []) (by simpa using hd)).1
  rcases eq_or_collision keccak (mem 2 (by decide) i m) (mem 2 (by decide) j n) hname with c | hname
  · exact .inl c
  rcases eq_or_collision keccak (mem 3 (by decide) i m) (mem 3 (by decide) j n) hver with c | hver
  · exact .inl c
  exact .inr ⟨hmn, hc, ha, hname, hver⟩

/-! ### Decimal numbers -/

theorem digits_spec (cs : List Char) (hc : ∀ c ∈ cs, c.isDigit = true) (acc : Nat) :
    digits (cs.map (fun c => UInt8.ofNat c.toNat)) acc = some (Nat.ofDigitChars 10 cs acc) := by
  induction cs generalizing acc with
  | nil => simp [digits, Nat.ofDigitChars]
  | cons c cs ih =>
    have h := hc c (by simp)
    have hr : 48 ≤ c.toNat ∧ c.toNat ≤ 57 := by
      simp only [Char.isDigit, Bool.and_eq_true, decide_eq_true_eq] at h
      exact h
    have hn : (UInt8.ofNat c.toNat).toNat = c.toNat := by
      simp only [UInt8.toNat_ofNat']; omega
    simp only [List.map_cons, digits, hn]
    rw [if_pos hr, ih (fun c h => hc c (by simp [h]))]
    simp [Nat.ofDigitChars]

theorem parse_decimal (bound n : Nat) (h : n < bound) : parseUint bound (ascii (toString n)) = some n := by
  have hl : (toString n).toList = Nat.toDigits 10 n := Nat.toList_repr
  have hd : ∀ c ∈ Nat.toDigits 10 n, c.isDigit = true := fun c hc => Nat.isDigit_of_mem_toDigits (by decide) (by decide) hc
  have hne : Nat.toDigits 10 n ≠ [] := Nat.toDigits_ne_nil
  unfold parseUint ascii
  rw [hl]
  have hsp := digits_spec _ hd 0
  rw [Nat.ofDigitChars_ten_toDigits] at hsp
  generalize hcs : Nat.toDigits 10 n = cs at *
  cases cs with
  | nil => exact absurd rfl hne
  | cons c cs =>
    have h43 : UInt8.ofNat c.toNat ≠ 43 := by
      have h := hd c (by simp)
      have hr : 48 ≤ c.toNat ∧ c.toNat ≤ 57 := by
        simp only [Char.isDigit, Bool.and_eq_true, decide_eq_true_eq] at h
        exact h
      intro e
      have := congrArg UInt8.toNat e
      simp only [UInt8.toNat_ofNat'] at this
      have h2 : (43 : UInt8).toNat = 43 := rfl
      omega
    simp only [List.map_cons] at hsp ⊢
    have : stripPlus (UInt8.ofNat c.toNat :: cs.map (fun c => UInt8.ofNat c.toNat)) =
        UInt8.ofNat c.toNat :: cs.map (fun c => UInt8.ofNat c.toNat) := by
      exact if_neg h43
    rw [this]
    simp only [List.isEmpty_cons, Bool.false_eq_true, if_false, hsp, h, if_true]

/-! ### The runtime's requests -/

/-- The message of a runtime request, given the transaction id and expiry the bridge assigns. -/
def Call.msg : Call → (expiry txId : Nat) → Msg
  | .publishRoot r, e, i => .publishRoot r e i
  | .triggerGrowth r a p, e, i => .triggerGrowth r a p e i
  | .addAuthor k t, e, i => .addAuthor k.toList t e i
  | .removeAuthor t k, e, i => .removeAuthor t k.toList e i

/-- Balances are 128 bit and periods 32 bit numbers. -/
def Call.InRange : Call → Prop
  | .triggerGrowth r a p => r < 2 ^ 128 ∧ a < 2 ^ 128 ∧ p < 2 ^ 32
  | _ => True

/-- The parameters of a request after `extend_params`. -/
def Call.extended (c : Call) (expiry txId : Nat) : List Param :=
  c.params ++ [(ascii "uint256", ascii (toString expiry)), (ascii "uint32", ascii (toString txId))]

theorem parse_call (c : Call) (e i : Nat) (hc : c.InRange) (he : e < 2 ^ 64) (hi : i < 2 ^ 32) :
    parseMsg c.name (c.extended e i) = .ok (c.msg e i) := by
  have pe : parseUint pow64 (ascii e.repr) = some e := parse_decimal pow64 e he
  have pi : parseUint pow32 (ascii i.repr) = some i := parse_decimal pow32 i hi
  cases c with
  | publishRoot r =>
    simp only [parseMsg, Call.name, Call.extended, Call.params, Call.msg, val, txIdAndExpiry, List.cons_append, List.nil_append,
      List.length_cons, List.length_nil, if_true]
    simp [pe, pi, toBytes?_toList]
  | triggerGrowth r a p =>
    have n1 : ascii "triggerGrowth" ≠ ascii "publishRoot" := by decide
    have p1 : parseUint pow128 (ascii r.repr) = some r := parse_decimal pow128 r hc.1
    have p2 : parseUint pow128 (ascii a.repr) = some a := parse_decimal pow128 a hc.2.1
    have p3 : parseUint pow32 (ascii p.repr) = some p := parse_decimal pow32 p hc.2.2
    simp only [parseMsg, Call.name, Call.extended, Call.params, Call.msg, val, txIdAndExpiry, List.cons_append, List.nil_append,
      List.length_cons, List.length_nil, if_true]
    rw [if_neg n1]
    simp [pe, pi, p1, p2, p3]
  | addAuthor k t =>
    have n1 : ascii "addAuthor" ≠ ascii "publishRoot" := by decide
    have n2 : ascii "addAuthor" ≠ ascii "triggerGrowth" := by decide
    simp only [parseMsg, Call.name, Call.extended, Call.params, Call.msg, val, txIdAndExpiry, List.cons_append, List.nil_append,
      List.length_cons, List.length_nil, if_true]
    rw [if_neg n1, if_neg n2]
    simp [pe, pi, toBytes?_toList]
  | removeAuthor t k =>
    have n1 : ascii "removeAuthor" ≠ ascii "publishRoot" := by decide
    have n2 : ascii "removeAuthor" ≠ ascii "triggerGrowth" := by decide
    have n3 : ascii "removeAuthor" ≠ ascii "addAuthor" := by decide
    simp only [parseMsg, Call.name, Call.extended, Call.params, Call.msg, val, txIdAndExpiry, List.cons_append, List.nil_append,
      List.length_cons, List.length_nil, if_true]
    rw [if_neg n1, if_neg n2, if_neg n3]
    simp [pe, pi, toBytes?_toList]

theorem call_msg_inRange (c : Call) (e i : Nat) (hc : c.InRange) (he : e < 2 ^ 64) (hi : i < 2 ^ 32) : (c.msg e i).InRange := by
  cases c with
  | publishRoot r => exact ⟨lt64 he, hi⟩
  | triggerGrowth r a p => exact ⟨lt128 hc.1, lt128 hc.2.1, hc.2.2, lt64 he, hi⟩
  | addAuthor k t => exact ⟨lt64 he, hi⟩
  | removeAuthor t k => exact ⟨lt64 he, hi⟩

theorem call_msg_inj {c d : Call} {e i e' i' : Nat} (h : c.msg e i = d.msg e' i') : c = d ∧ e = e' ∧ i = i' := by
  cases c <;> cases d <;> simp only [Call.msg] at h <;> first | (injection h; done) | skip
  case publishRoot.publishRoot => injection h with a b c; exact ⟨by rw [a], b, c⟩
  case triggerGrowth.triggerGrowth => injection h with a b c d e; exact ⟨by rw [a, b, c], d, e⟩
  case addAuthor.addAuthor => injection h with a b c d; exact ⟨by rw [toList_inj a, b], c, d⟩
  case removeAuthor.removeAuthor => injection h with a b c d; exact ⟨by rw [a, toList_inj b], c, d⟩

/-- **C85, every request the runtime makes can be signed.** Publishing a root, triggering growth, adding or removing an author
never fails or panics when hashed, and the hash is that of the struct with exactly the values given, the expiry and the transaction id. -/
theorem C85_runtime_requests_are_signable (inst : Instance) (c : Call) (e i : Nat) (hc : c.InRange) (he : e < 2 ^ 64)
    (hi : i < 2 ^ 32) : functionHash keccak lossy inst c.name (c.extended e i) = .ok (signingHash keccak lossy inst (c.msg e i)) := by
  unfold functionHash
  rw [parse_call c e i hc he hi]

/-- **C85, lowers.** The proof of a lower, packed by the token manager, is hashed with exactly its fields. -/
theorem C85_lower_is_signable (inst : Instance) (d : Lower.LowerData) (ha : d.amount < 2 ^ 128) (hi : d.lowerId < 2 ^ 32)
    (ht : d.t2Timestamp < 2 ^ 64) :
    lowerHash keccak lossy inst (Lower.concatLowerData d) = some (signingHash keccak lossy inst (.lower d)) := by
  unfold lowerHash
  rw [(C08_roundtrip d ha hi ht).2]; rfl

/-- **C85, runtime requests.** If two runtime requests - whatever their kind, transaction ids, expiries and bridge instances - are given
the same hash to sign, they are the same call with the same values, id and expiry on the same chain and contract, or a concrete collision
of Keccak has been found. -/
theorem C85_requests_do_not_share_signatures (p q : Instance) (c d : Call) (e i e' i' : Nat) (hp : p.chainId < 2 ^ 64)
    (hq : q.chainId < 2 ^ 64) (hc : c.InRange) (hd : d.InRange) (he : e < 2 ^ 64) (hi : i < 2 ^ 32) (he' : e' < 2 ^ 64)
    (hi' : i' < 2 ^ 32) (h : functionHash keccak lossy p c.name (c.extended e i) = functionHash keccak lossy q d.name (d.extended e' i')) :
    Collision keccak (hashed keccak lossy p (c.msg e i)) (hashed keccak lossy q (d.msg e' i')) ∨
      (c = d ∧ e = e' ∧ i = i' ∧ p.chainId = q.chainId ∧ p.contract = q.contract) := by
  rw [C85_runtime_requests_are_signable keccak lossy p c e i hc he hi,
    C85_runtime_requests_are_signable keccak lossy q d e' i' hd he' hi'] at h
  injection h with h
  rcases C85_message_is_bound keccak lossy p q _ _ hp hq (call_msg_inRange c e i hc he hi) (call_msg_inRange d e' i' hd he' hi') h with
    h | ⟨h, h1, h2, _, _⟩
  · exact .inl h
  · obtain ⟨a, b, c⟩ := call_msg_inj h
    exact .inr ⟨a, b, c, h1, h2⟩

/-- **C85, a lower is never also another request.** The hash signed for a lower's proof is the hash of no runtime request, unless a
concrete collision of Keccak has been found. -/
theorem C85_lower_is_not_a_request (p q : Instance) (d : Lower.LowerData) (c : Call) (e i : Nat) (hp : p.chainId < 2 ^ 64)
    (hq : q.chainId < 2 ^ 64) (ha : d.amount < 2 ^ 128) (hl : d.lowerId < 2 ^ 32) (ht : d.t2Timestamp < 2 ^ 64) (hc : c.InRange)
    (he : e < 2 ^ 64) (hi : i < 2 ^ 32) (x : Hash) (h1 : lowerHash keccak lossy p (Lower.concatLowerData d) = some x)
    (h2 : functionHash keccak lossy q c.name (c.extended e i) = .ok x) :
    Collision keccak (hashed keccak lossy p (.lower d)) (hashed keccak lossy q (c.msg e i)) := by
  rw [C85_lower_is_signable keccak lossy p d ha hl ht] at h1
  rw [C85_runtime_requests_are_signable keccak lossy q c e i hc he hi] at h2
  injection h1 with h1
  injection h2 with h2
  rcases C85_message_is_bound keccak lossy p q (.lower d) _ hp hq ⟨lt128 ha, hl, ht⟩ (call_msg_inRange c e i hc he hi) (h1.trans h2.symm) with
    h | ⟨h, _⟩
  · exact h
  · cases c <;> simp [Call.msg] at h

/-- **C85, the salt.** The salt an instance is configured with is not part of what is signed: two instances that differ only in it share
all their signatures. -/
theorem C85_salt_is_not_bound (i : Instance) (s : Option Hash) (m : Msg) :
    signingHash keccak lossy { i with salt := s } m = signingHash keccak lossy i m := rfl

/-- **C85, not every accepted request.** Hashing a request panics when a `bytes32` value has another length; such a request is accepted
by the bridge, which checks only the lengths of its byte strings. -/
theorem C85_wrong_length_panics (inst : Instance) (v : List UInt8) (hv : v.length ≠ 32) (t : List UInt8) (p : Param) (ps : List Param)
    (hps : ps.length = 2) :
    functionHash keccak lossy inst (ascii "publishRoot") ((t, v) :: ps) = .panic ∧
      functionHash keccak lossy inst (ascii "addAuthor") (p :: (t, v) :: ps) = .panic ∧
      functionHash keccak lossy inst (ascii "removeAuthor") ((t, v) :: p :: ps) = .panic := by
  have : Lower.toBytes? 32 v = none := by unfold Lower.toBytes?; rw [dif_neg hv]
  have n1 : ascii "addAuthor" ≠ ascii "publishRoot" := by decide
  have n2 : ascii "addAuthor" ≠ ascii "triggerGrowth" := by decide
  have n3 : ascii "removeAuthor" ≠ ascii "publishRoot" := by decide
  have n4 : ascii "removeAuthor" ≠ ascii "triggerGrowth" := by decide
  have n5 : ascii "removeAuthor" ≠ ascii "addAuthor" := by decide
  refine ⟨?_, ?_, ?_⟩
  · simp [functionHash, parseMsg, val, hps, this]
  · simp [functionHash, parseMsg, val, hps, this, n1, n2]
  · simp [functionHash, parseMsg, val, hps, this, n3, n4, n5]

/-- C85: a bridge instance is usable exactly when its contract address is not zero and its name and version are not empty. -/
theorem C85_usable_instances (i : Instance) :
    i.valid = true ↔ i.contract ≠ Vector.replicate 20 0 ∧ i.name ≠ [] ∧ i.version ≠ [] := by
  unfold Instance.valid
  simp [and_assoc]

/-! ### In the bridge pallet -/

theorem beVal_toList_inj {n : Nat} {a b : Bytes n} (h : beVal a.toList = beVal b.toList) : a = b := by
  unfold beVal at h
  have ha := leBytes_leVal a.toList.reverse
  have hb := leBytes_leVal b.toList.reverse
  rw [h] at ha
  have hl : a.toList.reverse.length = b.toList.reverse.length := by simp
  rw [hl, hb] at ha
  exact toList_inj (List.reverse_injective ha.symm)

/-- The bridge with its hash functions replaced by the ones modelled here: `inst` gives the instance an opaque instance number stands for,
`packed` the packed parameters an opaque lower parameter stands for. (A panic is treated like an error.) -/
def concreteEnv {W : Type} (inst : Nat → Instance) (packed : Nat → List UInt8) (env : BridgeTx.Env W) : BridgeTx.Env W :=
  { env with
    fnHash := fun name ps k => match functionHash keccak lossy (inst k) name ps with
      | .ok h => some (beVal h.toList)
      | _ => none
    lowerHash := fun p k => (lowerHash keccak lossy (inst k) (packed p)).map (fun h => beVal h.toList) }

/-- **C85, in every reachable state.** Take any two histories of the bridge (possibly on two chains). If the requests in progress are
runtime requests and their authors are asked to sign the same hash, then the two requests have the same function, the same values,
the same transaction id and expiry, and the bridge instances configured at that moment have the same chain and contract - or a
concrete collision of Keccak has been found. -/
theorem C85_active_requests_do_not_share_signatures {W V : Type} (inst inst' : Nat → Instance) (packed packed' : Nat → List UInt8)
    (env : BridgeTx.Env W) (env' : BridgeTx.Env V) (w : W) (v : V) (avn avn' : Avn.State) (n n' : Nat)
    (steps : List (BridgeTx.Step W)) (steps' : List (BridgeTx.Step V)) (a b : BridgeTx.Active)
    (hI : ∀ k, (inst k).chainId < 2 ^ 64) (hI' : ∀ k, (inst' k).chainId < 2 ^ 64) :
    let s := BridgeTx.run (concreteEnv keccak lossy inst packed env) (BridgeTx.initial w avn n) steps
    let s' := BridgeTx.run (concreteEnv keccak lossy inst' packed' env') (BridgeTx.initial v avn' n') steps'
    s.active = some a → s'.active = some b →
    ∀ c d : Call, c.InRange → d.InRange →
    ∀ i i' caller caller', a.request = .send ⟨i, c.name, c.params, caller⟩ → b.request = .send ⟨i', d.name, d.params, caller'⟩ →
      i < 2 ^ 32 → i' < 2 ^ 32 →
    ∀ e e', a.txData.map (·.expiry) = some e → b.txData.map (·.expiry) = some e' → e < 2 ^ 64 → e' < 2 ^ 64 →
    a.msgHash = b.msgHash →
      Collision keccak (hashed keccak lossy (inst s.instanceId) (c.msg e i)) (hashed keccak lossy (inst' s'.instanceId) (d.msg e' i')) ∨
      (c = d ∧ e = e' ∧ i = i' ∧ (inst s.instanceId).chainId = (inst' s'.instanceId).chainId ∧
        (inst s.instanceId).contract = (inst' s'.instanceId).contract) := by
  intro s s' ha hb c d hc hd i i' caller caller' hra hrb hi hi' e e' hea heb he he' hh
  have ma := BridgeTx.C79_message_in_every_state (concreteEnv keccak lossy inst packed env) w avn n steps a ha
  have mb := BridgeTx.C79_message_in_every_state (concreteEnv keccak lossy inst' packed' env') v avn' n' steps' b hb
  rw [hra] at ma
  rw [hrb] at mb
  obtain ⟨ta, hta, hfa, hpa⟩ := ma
  obtain ⟨tb, htb, hfb, hpb⟩ := mb
  rw [hta] at hea
  rw [htb] at heb
  have hea : ta.expiry = e := by simpa using hea
  have heb : tb.expiry = e' := by simpa using heb
  have hpa : ta.params = c.extended e i := by rw [hpa, hea]; rfl
  have hpb : tb.params = d.extended e' i' := by rw [hpb, heb]; rfl
  rw [hpa] at hfa
  rw [hpb] at hfb
  simp only [concreteEnv] at hfa hfb
  have ga := C85_runtime_requests_are_signable keccak lossy (inst s.instanceId) c e i hc he hi
  have gb := C85_runtime_requests_are_signable keccak lossy (inst' s'.instanceId) d e' i' hd he' hi'
  have hfa : (match functionHash keccak lossy (inst s.instanceId) c.name (c.extended e i) with
      | .ok h => some (beVal h.toList)
      | _ => none) = some a.msgHash := hfa
  have hfb : (match functionHash keccak lossy (inst' s'.instanceId) d.name (d.extended e' i') with
      | .ok h => some (beVal h.toList)
      | _ => none) = some b.msgHash := hfb
  rw [ga] at hfa
  rw [gb] at hfb
  simp only [Option.some.injEq] at hfa hfb
  have heq := beVal_toList_inj (hfa.trans (hh.trans hfb.symm))
  exact C85_requests_do_not_share_signatures keccak lossy _ _ c d e i e' i' (hI _) (hI' _) hc hd he hi he' hi' (by rw [ga, gb, heq])

/-! ### Examples -/

/-- Instances and requests that meet the hypotheses. -/
def exampleInstance : Instance :=
  { chainId := 1, contract := Vector.replicate 20 7, name := ascii "AVN", version := ascii "1", salt := none }

example : exampleInstance.valid = true ∧ exampleInstance.chainId < 2 ^ 64 := by decide +kernel
example : (Call.triggerGrowth 1000 (2 ^ 100) 12).InRange ∧ (Call.triggerGrowth 1000 (2 ^ 100) 12).extended 5 6 =
    [(ascii "uint256", ascii "1000"), (ascii "uint256", ascii "1267650600228229401496703205376"), (ascii "uint32", ascii "12"),
      (ascii "uint256", ascii "5"), (ascii "uint32", ascii "6")] := by
  constructor
  · exact ⟨by decide, by decide, by decide⟩
  · decide +kernel
example : parseMsg (ascii "publishRoot") [(ascii "bytes32", (Vector.replicate 32 (3 : UInt8)).toList), (ascii "uint256", ascii "0070"),
    (ascii "uint32", ascii "+9")] = .ok (.publishRoot (Vector.replicate 32 3) 70 9) := by decide +kernel
example : parseMsg (ascii "publishRoot") [(ascii "bytes32", (Vector.replicate 32 (3 : UInt8)).toList), (ascii "uint256", ascii "70"),
    (ascii "uint32", ascii "4294967296")] = .err := by decide +kernel

/-- The example bridge with a (colliding) constant hash: publishing a root makes it the request in progress. -/
example :
    let s := BridgeTx.run (concreteEnv (fun _ => Vector.replicate 32 1) id (fun _ => exampleInstance) (fun _ => []) BridgeTx.exEnv) BridgeTx.ex0
      [.publish (Call.publishRoot (Vector.replicate 32 9)).name (Call.publishRoot (Vector.replicate 32 9)).params [1] true]
    s.active.map (·.request) = some (.send ⟨5, (Call.publishRoot (Vector.replicate 32 9)).name,
      (Call.publishRoot (Vector.replicate 32 9)).params, [1]⟩) ∧
    (s.active.bind (·.txData)).map (·.expiry) = some 1800 := by
  decide +kernel

end Verif.Eip712
