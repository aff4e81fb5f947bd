import Verif.Lemmas.TokenManager

/-!
# C04 and C08: encodings signed by users and sent to Ethereum
-/

namespace Verif.TokenManager
open Verif.Lower

theorem pow128_eq : pow128 = 256 ^ 16 := by decide
theorem pow64_eq : pow64 = 256 ^ 8 := by decide
theorem pow32_eq : pow32 = 256 ^ 4 := by decide

/-! ## C04 -/

/-- **C04.** The bytes signed for a transfer determine relayer, sender, recipient, token, amount and nonce. -/
theorem C04_transfer_injective {r f d r' f' d' : Acct} {t t' : Addr} {a n a' n' : Nat}
    (ha : a < pow128) (ha' : a' < pow128) (hn : n < pow64) (hn' : n' < pow64)
    (h : encodeTransfer r f d t a n = encodeTransfer r' f' d' t' a' n') :
    r = r' ∧ f = f' ∧ d = d' ∧ t = t' ∧ a = a' ∧ n = n' := by
  unfold encodeTransfer at h
  rw [pow128_eq] at ha ha'; rw [pow64_eq] at hn hn'
  have h := List.append_cancel_left h
  obtain ⟨e1, h⟩ := vec_split h
  obtain ⟨e2, h⟩ := vec_split h
  obtain ⟨e3, h⟩ := vec_split h
  obtain ⟨e4, h⟩ := vec_split h
  obtain ⟨e5, h⟩ := le_split ha ha' h
  exact ⟨e1, e2, e3, e4, e5, leBytes_inj hn hn' h⟩

/-- **C04.** The bytes signed for a lower determine relayer, sender, token, amount, Ethereum recipient and nonce. -/
theorem C04_lower_injective {r f r' f' : Acct} {t t' t1 t1' : Addr} {a n a' n' : Nat}
    (ha : a < pow128) (ha' : a' < pow128) (hn : n < pow64) (hn' : n' < pow64)
    (h : encodeLower r f t a t1 n = encodeLower r' f' t' a' t1' n') :
    r = r' ∧ f = f' ∧ t = t' ∧ a = a' ∧ t1 = t1' ∧ n = n' := by
  unfold encodeLower at h
  rw [pow128_eq] at ha ha'; rw [pow64_eq] at hn hn'
  have h := List.append_cancel_left h
  obtain ⟨e1, h⟩ := vec_split h
  obtain ⟨e2, h⟩ := vec_split h
  obtain ⟨e3, h⟩ := vec_split h
  obtain ⟨e4, h⟩ := le_split ha ha' h
  obtain ⟨e5, h⟩ := vec_split h
  exact ⟨e1, e2, e3, e4, e5, leBytes_inj hn hn' h⟩

theorem transfer_head (r f d : Acct) (t : Addr) (a n : Nat) :
    (encodeTransfer r f d t a n).head? = some 144 := by
  have : (scaleBytes transferContext).head? = some 144 := by decide
  unfold encodeTransfer
  rw [List.head?_append, this]; rfl

theorem lower_head (r f : Acct) (t t1 : Addr) (a n : Nat) : (encodeLower r f t a t1 n).head? = some 132 := by
  have : (scaleBytes lowerContext).head? = some 132 := by decide
  unfold encodeLower
  rw [List.head?_append, this]; rfl

/-- **C04.** No transfer payload equals any lower payload. -/
theorem C04_domain_separated (r f d r' f' : Acct) (t t' t1' : Addr) (a n a' n' : Nat) :
    encodeTransfer r f d t a n ≠ encodeLower r' f' t' a' t1' n' := by
  intro h
  have := congrArg List.head? h
  rw [transfer_head, lower_head] at this
  exact absurd this (by decide)

/-- The payloads of this pallet. -/
def IsPayload (m : List UInt8) : Prop :=
  (∃ r f d t a n, m = encodeTransfer r f d t a n) ∨ (∃ r f t a t1 n, m = encodeLower r f t a t1 n)

theorem wrap_head (p : List UInt8) : (wrapBytes p).head? = some 60 := by
  have : (ascii "<Bytes>").head? = some 60 := by decide
  unfold wrapBytes
  rw [List.append_assoc, List.head?_append, this]; rfl

theorem wrap_inj {p q : List UInt8} (h : wrapBytes p = wrapBytes q) : p = q := by
  unfold wrapBytes at h
  rw [List.append_assoc, List.append_assoc] at h
  have h := List.append_cancel_left h
  exact List.append_cancel_right h

theorem payload_ne_wrap {p : List UInt8} (hp : IsPayload p) (q : List UInt8) : p ≠ wrapBytes q := by
  intro h
  have h1 := congrArg List.head? h
  rw [wrap_head] at h1
  rcases hp with ⟨r, f, d, t, a, n, rfl⟩ | ⟨r, f, t, a, t1, n, rfl⟩
  · rw [transfer_head] at h1; exact absurd h1 (by decide)
  · rw [lower_head] at h1; exact absurd h1 (by decide)

/-- **C04.** The verifier accepts a signature over the payload itself or over the payload wrapped in `<Bytes>` tags. One
signed message never stands for two different payloads, whichever of the two forms was signed. -/
theorem C04_wrapping_unambiguous {m p q : List UInt8} (hp : IsPayload p) (hq : IsPayload q)
    (h1 : m = p ∨ m = wrapBytes p) (h2 : m = q ∨ m = wrapBytes q) : p = q := by
  rcases h1 with rfl | rfl <;> rcases h2 with h | h
  · exact h
  · exact absurd h (payload_ne_wrap hp q)
  · exact absurd h.symm (payload_ne_wrap hq p)
  · exact wrap_inj h

/-- The hypotheses are met by distinct payloads that differ in a single field. -/
example : encodeTransfer (Vector.replicate 32 1) (Vector.replicate 32 2) (Vector.replicate 32 3) (Vector.replicate 20 9) 5 0 ≠
    encodeTransfer (Vector.replicate 32 1) (Vector.replicate 32 2) (Vector.replicate 32 3) (Vector.replicate 20 9) 5 1 := by
  intro h
  have := (C04_transfer_injective (by decide) (by decide) (by decide) (by decide) h).2.2.2.2.2
  exact absurd this (by decide)

example : ∃ m p q : List UInt8, IsPayload p ∧ IsPayload q ∧ (m = p ∨ m = wrapBytes p) ∧ (m = q ∨ m = wrapBytes q) :=
  let p := encodeTransfer (Vector.replicate 32 1) (Vector.replicate 32 2) (Vector.replicate 32 3) (Vector.replicate 20 9) 5 0
  ⟨wrapBytes p, p, p, .inl ⟨_, _, _, _, _, _, rfl⟩, .inl ⟨_, _, _, _, _, _, rfl⟩, .inr rfl, .inr rfl⟩

/-! ## C08 -/

theorem toBytes?_toList {n : Nat} (v : Bytes n) : toBytes? n v.toList = some v := by
  unfold toBytes?
  have h : v.toList.length = n := by simp
  rw [dif_pos h]
  congr 1

theorem span_at {pre x post : List UInt8} : span (pre ++ (x ++ post)) pre.length x.length = x := by
  unfold span; simp

/-- **C08.** Packed lower parameters are 116 bytes, and the decoder the validators sign from recovers every field. -/
theorem C08_roundtrip (d : LowerData) (ha : d.amount < pow128) (hi : d.lowerId < pow32) (ht : d.t2Timestamp < pow64) :
    (concatLowerData d).length = 116 ∧ decodeLowerData (concatLowerData d) = some d := by
  have hlen : (concatLowerData d).length = 116 := by simp [concatLowerData]
  refine ⟨hlen, ?_⟩
  rw [pow128_eq] at ha; rw [pow32_eq] at hi; rw [pow64_eq] at ht
  have s0 : span (concatLowerData d) 0 20 = d.token.toList := by
    have := @span_at [] d.token.toList (List.replicate 16 0 ++ (beBytes 16 d.amount ++ (d.recipient.toList ++
      (beBytes 4 d.lowerId ++ (d.t2Sender.toList ++ beBytes 8 d.t2Timestamp)))))
    simpa [concatLowerData] using this
  have s1 : span (concatLowerData d) 36 16 = beBytes 16 d.amount := by
    have := @span_at (d.token.toList ++ List.replicate 16 0) (beBytes 16 d.amount) (d.recipient.toList ++
      (beBytes 4 d.lowerId ++ (d.t2Sender.toList ++ beBytes 8 d.t2Timestamp)))
    simpa [concatLowerData, List.append_assoc] using this
  have s2 : span (concatLowerData d) 52 20 = d.recipient.toList := by
    have := @span_at (d.token.toList ++ (List.replicate 16 0 ++ beBytes 16 d.amount)) d.recipient.toList
      (beBytes 4 d.lowerId ++ (d.t2Sender.toList ++ beBytes 8 d.t2Timestamp))
    simpa [concatLowerData, List.append_assoc] using this
  have s3 : span (concatLowerData d) 72 4 = beBytes 4 d.lowerId := by
    have := @span_at (d.token.toList ++ (List.replicate 16 0 ++ (beBytes 16 d.amount ++ d.recipient.toList)))
      (beBytes 4 d.lowerId) (d.t2Sender.toList ++ beBytes 8 d.t2Timestamp)
    simpa [concatLowerData, List.append_assoc] using this
  have s4 : span (concatLowerData d) 76 32 = d.t2Sender.toList := by
    have := @span_at (d.token.toList ++ (List.replicate 16 0 ++ (beBytes 16 d.amount ++ (d.recipient.toList ++
      beBytes 4 d.lowerId)))) d.t2Sender.toList (beBytes 8 d.t2Timestamp)
    simpa [concatLowerData, List.append_assoc] using this
  have s5 : span (concatLowerData d) 108 8 = beBytes 8 d.t2Timestamp := by
    have := @span_at (d.token.toList ++ (List.replicate 16 0 ++ (beBytes 16 d.amount ++ (d.recipient.toList ++
      (beBytes 4 d.lowerId ++ d.t2Sender.toList))))) (beBytes 8 d.t2Timestamp) []
    simpa [concatLowerData, List.append_assoc] using this
  unfold decodeLowerData
  simp only [hlen, s0, s1, s2, s3, s4, s5, toBytes?_toList, beVal_beBytes _ _ ha, beVal_beBytes _ _ hi,
    beVal_beBytes _ _ ht]
  rfl

/-- **C08.** Two different lowers never share proof parameters. -/
theorem C08_injective (d d' : LowerData) (ha : d.amount < pow128) (hi : d.lowerId < pow32) (ht : d.t2Timestamp < pow64)
    (ha' : d'.amount < pow128) (hi' : d'.lowerId < pow32) (ht' : d'.t2Timestamp < pow64)
    (h : concatLowerData d = concatLowerData d') : d = d' := by
  have h1 := (C08_roundtrip d ha hi ht).2
  have h2 := (C08_roundtrip d' ha' hi' ht').2
  rw [h, h2] at h1
  exact (Option.some.inj h1).symm

example : ∃ d : LowerData, d.amount < pow128 ∧ d.lowerId < pow32 ∧ d.t2Timestamp < pow64 ∧ d.amount ≠ 0 :=
  ⟨⟨Vector.replicate 20 3, 100, Vector.replicate 20 2, 10, Vector.replicate 32 5, 1000000000⟩, by decide⟩

end Verif.TokenManager
