import Verif.Model.AuthorPayloads
import Verif.Lemmas.Encoding

/-!
# C87: an author's signature is good for one action only
-/

namespace Verif.Payloads

/-! ### Specification -/

/-- Numbers fit their types. -/
def Report.InRange : Report → Prop
  | .checkResult _ i => i < 2 ^ 64
  | .processEvent _ _ i => i < 2 ^ 64
  | .challengeEvent _ _ _ _ i => i < 2 ^ 64
  | .recordRoot _ _ i b => i < 2 ^ 64 ∧ b < 2 ^ 32
  | .advanceSlot _ s => s < 2 ^ 32
  | .rootVote _ f t i _ => f < 2 ^ 32 ∧ t < 2 ^ 32 ∧ i < 2 ^ 64
  | .endVote _ f t i => f < 2 ^ 32 ∧ t < 2 ^ 32 ∧ i < 2 ^ 64
  | .challengeRoot _ r _ _ => ∀ s, r = some s → s < 2 ^ 32

/-- Numbers fit their types. -/
def Bridge.InRange : Bridge → Prop
  | .confirmation i _ _ => i < 2 ^ 32
  | .ethTxHash i _ _ => i < 2 ^ 32
  | .corroboration i _ _ _ r => i < 2 ^ 32 ∧ r < 2 ^ 16
  | .events _ _ => True
  | .latestBlock _ b => b < 2 ^ 32

/-- Numbers fit their types, calldata is of a length that can be encoded. -/
def Signed.InRange : Signed → Prop
  | .report r => r.InRange
  | .bridge _ b => b.InRange
  | .signRequest _ => True
  | .sendRequest _ _ d => d.length < 2 ^ 32

/-- The action meant by a report, up to the `Summary` instance of a vote, an end of vote or a challenge. -/
def Report.forget : Report → Report
  | .rootVote _ f t i a => .rootVote 0 f t i a
  | .endVote _ f t i => .endVote 0 f t i
  | .challengeRoot _ r a b => .challengeRoot 0 r a b
  | r => r

/-- The action meant, up to the `Summary` instance of a vote, an end of vote or a challenge. -/
def Signed.forget : Signed → Signed
  | .report r => .report r.forget
  | s => s

/-- The 32 bytes an action's payload begins with: the hash of a bridge instance, a message hash or the author's account. -/
def Signed.head : Signed → Option (Bytes 32)
  | .report _ => none
  | .bridge h _ => some h
  | .signRequest h => some h
  | .sendRequest a _ _ => some a

/-- A hash or account begins, in its first 14 bytes, like an encoded context. -/
def LooksLikeContext (h : Bytes 32) : Prop := ∃ r : Report, h.toList.take 14 = (scaleBytes r.context).take 14

/-- A coincidence no one can arrange: a hash or account that begins like an encoded context, or a bridge instance whose hash is an author's
account. -/
def Coincidence (a b : Signed) : Prop :=
  (∃ h, (a.head = some h ∨ b.head = some h) ∧ LooksLikeContext h) ∨
  (∃ h x c d, (a = .bridge h x ∧ b = .sendRequest h c d) ∨ (b = .bridge h x ∧ a = .sendRequest h c d))

/-! ### Lemmas -/

theorem cons_ne {p : UInt8} {x y : List UInt8} (h : x ≠ y.tail) : p :: x ≠ y := by rintro rfl; exact h rfl

theorem le4_inj {a b : Nat} (ha : a < 2 ^ 32) (hb : b < 2 ^ 32) (h : leBytes 4 a = leBytes 4 b) : a = b := leBytes_inj (k := 4) ha hb h
theorem le8_inj {a b : Nat} (ha : a < 2 ^ 64) (hb : b < 2 ^ 64) (h : leBytes 8 a = leBytes 8 b) : a = b := leBytes_inj (k := 8) ha hb h
theorem le4_split {a b : Nat} {x y : List UInt8} (ha : a < 2 ^ 32) (hb : b < 2 ^ 32) (h : leBytes 4 a ++ x = leBytes 4 b ++ y) :
    a = b ∧ x = y := le_split (k := 4) ha hb h
theorem le8_split {a b : Nat} {x y : List UInt8} (ha : a < 2 ^ 64) (hb : b < 2 ^ 64) (h : leBytes 8 a ++ x = leBytes 8 b ++ y) :
    a = b ∧ x = y := le_split (k := 8) ha hb h

theorem vec_inj {n : Nat} {a b : Bytes n} (h : a.toList = b.toList) : a = b := by
  have : a.toList ++ [] = b.toList ++ [] := by rw [h]
  exact (vec_split this).1

theorem bool_split {a b : Bool} {x y : List UInt8} (h : boolByte a ++ x = boolByte b ++ y) : a = b ∧ x = y := by
  cases a <;> cases b <;> simp [boolByte] at h ⊢ <;> exact h

theorem session_inj {f t i f' t' i' : Nat} (h1 : f < 2 ^ 32) (h2 : t < 2 ^ 32) (h3 : i < 2 ^ 64) (h1' : f' < 2 ^ 32) (h2' : t' < 2 ^ 32)
    (h3' : i' < 2 ^ 64) (h : sessionId f t i = sessionId f' t' i') : f = f' ∧ t = t' ∧ i = i' := by
  unfold sessionId at h
  obtain ⟨a, h⟩ := le4_split h1 h1' h
  obtain ⟨b, h⟩ := le4_split h2 h2' h
  exact ⟨a, b, le8_inj h3 h3' h⟩

theorem session_length (f t i : Nat) : (sessionId f t i).length = 16 := by simp [sessionId]

theorem session_split {f t i f' t' i' : Nat} {x y : List UInt8} (h : scaleBytes (sessionId f t i) ++ x = scaleBytes (sessionId f' t' i') ++ y) :
    sessionId f t i = sessionId f' t' i' ∧ x = y :=
  scaleBytes_split (by rw [session_length]; decide) (by rw [session_length]; decide) h

theorem context_length (r : Report) : r.context.length < pow32 := by cases r <;> simp only [Report.context, List.length_cons] <;> decide

theorem bridge_context_length (b : Bridge) : b.context.length < pow32 := by cases b <;> simp only [Bridge.context] <;> decide

theorem back_split {k : Nat} {x y r s : List UInt8} (hx : x.length = k) (hy : y.length = k) (h : r ++ x = s ++ y) : r = s ∧ x = y := by
  have hl : r.length = s.length := by have := congrArg List.length h; simp only [List.length_append] at this; omega
  exact append_split hl h

theorem reason_split {r s : Option Nat} {x y : List UInt8} (hr : ∀ n, r = some n → n < 2 ^ 32) (hs : ∀ n, s = some n → n < 2 ^ 32)
    (h : reasonBytes r ++ x = reasonBytes s ++ y) : r = s ∧ x = y := by
  cases r with
  | none => cases s with
    | none => simpa [reasonBytes] using h
    | some n => simp [reasonBytes] at h
  | some m => cases s with
    | none => simp [reasonBytes] at h
    | some n =>
      simp only [reasonBytes, List.cons_append, List.cons.injEq, true_and] at h
      obtain ⟨a, b⟩ := le4_split (hr m rfl) (hs n rfl) h
      exact ⟨by rw [a], b⟩

theorem report_inj {a b : Report} (ha : a.InRange) (hb : b.InRange) (hc : a.context = b.context) (h : a.body = b.body) :
    a.forget = b.forget := by
  cases a <;> cases b <;>
    first
    | (simp only [Report.context] at hc
       first
       | exact absurd hc (by decide)
       | exact absurd hc (cons_ne (by decide))
       | exact absurd hc.symm (cons_ne (by decide))
       | exact absurd (List.cons.inj hc).2 (by decide))
    | skip
  case checkResult.checkResult r i r' i' =>
    obtain ⟨h1, h2⟩ := back_split (k := 8) (by simp) (by simp) h
    rw [h1, le8_inj ha hb h2]
  case processEvent.processEvent s t i s' t' i' =>
    obtain ⟨h1, h⟩ := vec_split h
    obtain ⟨h2, h⟩ := vec_split h
    rw [h1, h2, le8_inj ha hb h]
  case challengeEvent.challengeEvent s t r a i s' t' r' a' i' =>
    obtain ⟨h1, h⟩ := vec_split h
    obtain ⟨h2, h⟩ := vec_split h
    injection h with h3 h
    obtain ⟨h4, h⟩ := vec_split h
    rw [h1, h2, h3, h4, le8_inj ha hb h]
  case recordRoot.recordRoot p r i b p' r' i' b' =>
    obtain ⟨h1, h⟩ := vec_split h
    obtain ⟨h2, h⟩ := le8_split ha.1 hb.1 h
    rw [(List.cons.inj hc).1, h1, h2, le4_inj ha.2 hb.2 h]
  case advanceSlot.advanceSlot p s p' s' => rw [(List.cons.inj hc).1, le4_inj ha hb h]
  case rootVote.rootVote p f t i v p' f' t' i' v' =>
    obtain ⟨h1, h⟩ := session_split h
    obtain ⟨a1, a2, a3⟩ := session_inj ha.1 ha.2.1 ha.2.2 hb.1 hb.2.1 hb.2.2 h1
    have := (bool_split (x := []) (y := []) (by simpa using h)).1
    simp only [Report.forget, a1, a2, a3, this]
  case endVote.endVote p f t i p' f' t' i' =>
    obtain ⟨h1, _⟩ := session_split (x := []) (y := []) (by simpa [Report.body] using h)
    obtain ⟨a1, a2, a3⟩ := session_inj ha.1 ha.2.1 ha.2.2 hb.1 hb.2.1 hb.2.2 h1
    simp only [Report.forget, a1, a2, a3]
  case challengeRoot.challengeRoot p r a b p' r' a' b' =>
    obtain ⟨h1, h⟩ := reason_split ha hb h
    obtain ⟨h2, h⟩ := vec_split h
    simp only [Report.forget, h1, h2, vec_inj h]

theorem bridge_inj {a b : Bridge} (ha : a.InRange) (hb : b.InRange) (hc : a.context = b.context) (h : a.body = b.body) : a = b := by
  cases a <;> cases b <;>
    first
    | (simp only [Bridge.context] at hc; exact absurd hc (by decide))
    | skip
  case confirmation.confirmation =>
    obtain ⟨h1, h⟩ := le4_split ha hb h
    obtain ⟨h2, h⟩ := vec_split h
    rw [h1, h2, vec_inj h]
  case ethTxHash.ethTxHash =>
    obtain ⟨h1, h⟩ := le4_split ha hb h
    obtain ⟨h2, h⟩ := vec_split h
    rw [h1, h2, vec_inj h]
  case corroboration.corroboration =>
    obtain ⟨h1, h⟩ := le4_split ha.1 hb.1 h
    obtain ⟨h2, h⟩ := bool_split h
    obtain ⟨h3, h⟩ := bool_split h
    obtain ⟨h4, h⟩ := vec_split h
    rw [h1, h2, h3, h4, leBytes_inj (k := 2) ha.2 hb.2 h]
  case events.events =>
    obtain ⟨h1, h⟩ := vec_split h
    rw [h1, h]
  case latestBlock.latestBlock =>
    obtain ⟨h1, h⟩ := vec_split h
    rw [h1, le4_inj ha hb h]

theorem context_encoded_long (r : Report) : 14 ≤ (scaleBytes r.context).length := by
  cases r <;> simp only [Report.context, scaleBytes, List.length_append, List.length_cons] <;> decide

theorem report_head (r : Report) (h : Bytes 32) (x : List UInt8) (e : scaleBytes r.context ++ r.body = h.toList ++ x) : LooksLikeContext h := by
  refine ⟨r, ?_⟩
  have := congrArg (List.take 14) e
  rw [List.take_append_of_le_length (context_encoded_long r), List.take_append_of_le_length (by simp)] at this
  exact this.symm

/-! ### Theorems -/

/-- **C87, one signature, one action.** If what an author signs for two actions is the same string, they are the same action - the same
kind of vote, report or request, in the same pallet, with the same content, for the same bridge instance and, for roots being recorded
and slots being advanced, the same `Summary` instance - unless a hash happens to begin like a context or to be an account. Votes on roots,
ends of voting and root challenges are the same only up to the `Summary` instance. -/
theorem C87_signed_once_partial (a b : Signed) (ha : a.InRange) (hb : b.InRange) (h : a.payload = b.payload) :
    a.forget = b.forget ∨ Coincidence a b := by
  cases a with
  | report r =>
    cases b with
    | report s =>
      obtain ⟨h1, h2⟩ := scaleBytes_split (context_length r) (context_length s) h
      exact .inl (by simp only [Signed.forget, report_inj ha hb h1 h2])
    | bridge i x => exact .inr (.inl ⟨i, .inr rfl, report_head r i _ h⟩)
    | signRequest m => exact .inr (.inl ⟨m, .inr rfl, report_head r m [] (by simpa [Signed.payload] using h)⟩)
    | sendRequest a c d => exact .inr (.inl ⟨a, .inr rfl, report_head r a _ h⟩)
  | bridge i x =>
    cases b with
    | report s => exact .inr (.inl ⟨i, .inl rfl, report_head s i _ h.symm⟩)
    | bridge j y =>
      obtain ⟨h1, h⟩ := vec_split h
      obtain ⟨h2, h3⟩ := scaleBytes_split (bridge_context_length x) (bridge_context_length y) h
      exact .inl (by simp only [Signed.forget, h1, bridge_inj ha hb h2 h3])
    | signRequest m =>
      exfalso
      have h := congrArg List.length h
      simp only [Signed.payload, List.length_append, Vector.length_toList, scaleBytes] at h
      have : 0 < x.context.length := by cases x <;> simp only [Bridge.context] <;> decide
      omega
    | sendRequest a c d =>
      obtain ⟨h1, _⟩ := vec_split h
      exact .inr (.inr ⟨i, x, c, d, .inl ⟨rfl, by rw [h1]⟩⟩)
  | signRequest m =>
    cases b with
    | report s => exact .inr (.inl ⟨m, .inl rfl, report_head s m [] (by simpa [Signed.payload] using h.symm)⟩)
    | bridge j y =>
      exfalso
      have h := congrArg List.length h
      simp only [Signed.payload, List.length_append, Vector.length_toList, scaleBytes] at h
      have : 0 < y.context.length := by cases y <;> simp only [Bridge.context] <;> decide
      omega
    | signRequest m' => exact .inl (by rw [vec_inj h])
    | sendRequest a c d =>
      exfalso
      have h := congrArg List.length h
      simp only [Signed.payload, List.length_append, Vector.length_toList, scaleBytes] at h
      omega
  | sendRequest a c d =>
    cases b with
    | report s => exact .inr (.inl ⟨a, .inl rfl, report_head s a _ h.symm⟩)
    | bridge j y =>
      obtain ⟨h1, _⟩ := vec_split h
      exact .inr (.inr ⟨j, y, c, d, .inr ⟨rfl, by rw [h1]⟩⟩)
    | signRequest m' =>
      exfalso
      have h := congrArg List.length h
      simp only [Signed.payload, List.length_append, Vector.length_toList, scaleBytes] at h
      omega
    | sendRequest a' c' d' =>
      obtain ⟨h1, h⟩ := vec_split h
      obtain ⟨h2, h⟩ := vec_split h
      have h3 := (scaleBytes_split (b := []) (d := []) (by exact ha) (by exact hb) (by simpa using h)).1
      exact .inl (by rw [h1, h2, h3])

/-- **C87, what is accepted was signed.** Suppose an author's AvN key has signed the actions `history` and nothing else, and signatures cannot
be forged. Then an action accepted with that key is one of them (up to the `Summary` instance of votes, ends of voting and challenges),
or a hash begins like a context or is an account. -/
theorem C87_accepted_action_was_signed_partial {Sig : Type} (verify : List UInt8 → Sig → Bool) (history : List Signed)
    (hr : ∀ a ∈ history, a.InRange) (unforgeable : ∀ m s, verify m s = true → ∃ a ∈ history, a.payload = m)
    (b : Signed) (hb : b.InRange) (s : Sig) (hv : verify b.payload s = true) :
    ∃ a ∈ history, a.forget = b.forget ∨ Coincidence a b := by
  obtain ⟨a, h1, h2⟩ := unforgeable _ _ hv
  exact ⟨a, h1, C87_signed_once_partial a b (hr a h1) hb h2⟩

/-- **C87, the full claim is false.** With two `Summary` instances (the test runtime has two), a signed vote on a root of one instance, a signed
end of its vote or a signed challenge is also a valid one in the other instance. -/
theorem C87_full_claim_false (p q : UInt8) (f t i : Nat) (aye : Bool) (r : Option Nat) (x y : Acct) :
    (Signed.report (.rootVote p f t i aye)).payload = (Signed.report (.rootVote q f t i aye)).payload ∧
      (Signed.report (.endVote p f t i)).payload = (Signed.report (.endVote q f t i)).payload ∧
      (Signed.report (.challengeRoot p r x y)).payload = (Signed.report (.challengeRoot q r x y)).payload := ⟨rfl, rfl, rfl⟩

/-! ### Examples -/

example : (Signed.report (.rootVote 1 10 20 3 true)).InRange ∧ (Signed.report (.rootVote 1 10 20 3 true)).payload =
    68 :: ascii "root_casting_vote" ++ [64, 10, 0, 0, 0, 20, 0, 0, 0, 3, 0, 0, 0, 0, 0, 0, 0, 1] := by
  refine ⟨⟨by decide, by decide, by decide⟩, by decide⟩

/-- An ordinary instance hash does not look like a context. -/
example : ¬ LooksLikeContext (Vector.replicate 32 7) := by
  rintro ⟨r, h⟩
  have h := congrArg (fun l => l.head?) h
  cases r <;> simp only [Report.context, scaleBytes, List.length_cons] at h <;> revert h <;>
    simp only [List.head?_take] <;> simp [compact, ascii] <;> decide

end Verif.Payloads
