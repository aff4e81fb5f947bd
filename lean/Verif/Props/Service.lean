import Verif.Model.Service
import Verif.Lemmas.EventCheck
import Verif.Props.Calldata
import Mathlib.Data.List.DropRight
import Mathlib.Data.List.Induction

/-!
# C102, C103, C104: the service holding the author's Ethereum key
-/

namespace Verif.Service

open Verif.EventCheck (Out decodeVec)
open Verif.Calldata (hexDecode hexEncode)

/-! ## Specification -/

/-- The header of the request is the signature, in hex, of `msg` by one of the node's `avnk` keys. -/
def Token (c : Crypto) (ks : Keystore) (auth : Option (List UInt8)) (msg : List UInt8) : Prop :=
  ∃ h b k, auth = some h ∧ hexDecode (trim h) = some b ∧ 64 ≤ b.length ∧ k ∈ ks.avnKeys ∧ c.srVerify k msg (b.take 64) = true

/-- A file whose name is the hex of `ethk` followed by a public key. -/
def KeyFile (f : List UInt8 × Option (List UInt8)) (pub : List UInt8) : Prop :=
  pub ≠ [] ∧ hexDecode f.1 = some (ascii "ethk" ++ pub)

/-- `secret` is the content of the node's only Ethereum key file. -/
def OnlyKey (files : List (List UInt8 × Option (List UInt8))) (secret : List UInt8) : Prop :=
  ∃ pub content key, (∀ f ∈ files, ∀ p, KeyFile f p → p = pub) ∧
    (hexEncode (ascii "ethk" ++ pub), some content) ∈ files ∧ hexDecode content = some key ∧ 32 ≤ key.length ∧ secret = key.take 32

/-- The answers to transactions handed over by the service, in order. -/
def submissions (log : List Obs) : List (Submission × Except EthErr Hash) :=
  log.filterMap fun o => match o with
    | .submitted tx a => some (tx, a)
    | .signed _ _ _ => none

/-- Nonces of the transactions Ethereum accepted, in order. -/
def acceptedNonces (log : List Obs) : List Nat :=
  (submissions log).filterMap fun p => match p.2 with
    | .ok _ => some p.1.nonce
    | .error _ => none

/-! ## Lemmas -/

theorem trim_trim (s : List UInt8) : trim (trim s) = trim s := by
  have hr : ∀ l : List UInt8, trim l = List.rdropWhile isSpace (List.dropWhile isSpace l) := fun l => rfl
  -- dropping on the left of a right-trimmed, left-trimmed list changes nothing
  have key : List.dropWhile isSpace (trim s) = trim s := by
    rw [List.dropWhile_eq_self_iff]
    rw [hr s]
    intro hl hsp
    have hpre : List.rdropWhile isSpace (List.dropWhile isSpace s) <+: List.dropWhile isSpace s := List.rdropWhile_prefix _ _
    have hl' : 0 < (List.dropWhile isSpace s).length := lt_of_lt_of_le hl hpre.length_le
    have h0 : (List.rdropWhile isSpace (List.dropWhile isSpace s))[0]'hl = (List.dropWhile isSpace s)[0]'hl' := hpre.getElem hl
    have hself : List.dropWhile isSpace (List.dropWhile isSpace s) = List.dropWhile isSpace s := List.dropWhile_idempotent _ _
    exact (List.dropWhile_eq_self_iff.1 hself) hl' (h0 ▸ hsp)
  rw [hr (trim s), key, hr s]
  exact List.rdropWhile_idempotent _ _

theorem hexDigit_not_space (n : Nat) (h : n < 16) : isSpace (Calldata.hexDigit n) = false := by
  have : ∀ n : Fin 16, isSpace (Calldata.hexDigit n) = false := by decide
  exact this ⟨n, h⟩

theorem hexEncode_no_space (bs : List UInt8) : ∀ b ∈ hexEncode bs, isSpace b = false := by
  induction bs with
  | nil => simp [hexEncode]
  | cons a as ih =>
    intro b hb
    have ha : a.toNat < 256 := a.toNat_lt
    simp only [hexEncode, List.mem_cons] at hb
    rcases hb with rfl | rfl | hb
    · exact hexDigit_not_space _ (by omega)
    · exact hexDigit_not_space _ (by omega)
    · exact ih b hb

theorem dropWhile_self {l : List UInt8} (h : ∀ b ∈ l, isSpace b = false) : l.dropWhile isSpace = l := by
  rw [List.dropWhile_eq_self_iff]
  intro hl
  rw [h _ (List.getElem_mem hl)]; simp

theorem trim_hexEncode (bs : List UInt8) : trim (hexEncode bs) = hexEncode bs := by
  unfold trim
  rw [dropWhile_self (hexEncode_no_space bs), dropWhile_self (fun b hb => hexEncode_no_space bs b (List.mem_reverse.1 hb)),
    List.reverse_reverse]

theorem authorised_iff (c : Crypto) (ks : Keystore) (auth : Option (List UInt8)) (msg : List UInt8) :
    authorised c ks auth msg = true ↔ Token c ks auth msg := by
  unfold authorised Token
  cases auth with
  | none => simp
  | some h =>
    dsimp only
    unfold decodeToken
    rw [trim_trim]
    cases e : hexDecode (trim h) with
    | none =>
      simp only [Bool.false_eq_true, Option.some.injEq, false_iff]
      rintro ⟨h', b, k, rfl, h2, -⟩
      rw [e] at h2; exact absurd h2 (by simp)
    | some b =>
      dsimp only
      by_cases hb : b.length < 64
      · rw [if_pos hb]
        simp only [Bool.false_eq_true, Option.some.injEq, false_iff]
        rintro ⟨h', b', k, rfl, h2, h3, -⟩
        rw [e] at h2; injection h2 with h2; subst h2; omega
      · rw [if_neg hb]
        dsimp only
        unfold authenticate
        rw [List.any_eq_true]
        constructor
        · rintro ⟨k, hk, hv⟩; exact ⟨h, b, k, rfl, e, by omega, hk, hv⟩
        · rintro ⟨h', b', k, hh, h2, h3, hk, hv⟩
          injection hh with hh; subst hh
          rw [e] at h2; injection h2 with h2; subst h2
          exact ⟨k, hk, hv⟩

theorem mem_rawPublicKeys {files : List (List UInt8 × Option (List UInt8))} {p : List UInt8} :
    p ∈ rawPublicKeys files ↔ ∃ f ∈ files, KeyFile f p := by
  unfold rawPublicKeys
  rw [List.mem_filterMap]
  have hk : (ascii "ethk").length = 4 := by decide
  constructor
  · rintro ⟨f, hf, he⟩
    refine ⟨f, hf, ?_⟩
    cases e : hexDecode f.1 with
    | none => rw [e] at he; simp at he
    | some h =>
      rw [e] at he; dsimp only at he
      by_cases h1 : h.length > 4
      · rw [if_pos h1] at he
        by_cases h2 : h.take 4 ≠ ethk
        · rw [if_pos h2] at he; simp at he
        · rw [if_neg h2] at he
          injection he with he
          have h3 : h.take 4 = ethk := not_not.1 h2
          refine ⟨fun hp => ?_, ?_⟩
          · have := congrArg List.length he; rw [hp, List.length_drop] at this; simp at this; omega
          · rw [e, ← he]
            have : ascii "ethk" = h.take 4 := h3.symm
            rw [this, List.take_append_drop]
      · rw [if_neg h1] at he; simp at he
  · rintro ⟨f, hf, hp, hd⟩
    refine ⟨f, hf, ?_⟩
    rw [hd]; dsimp only
    have hlen : (ascii "ethk" ++ p).length > 4 := by
      rw [List.length_append, hk]
      have := List.length_pos_of_ne_nil hp
      omega
    rw [if_pos hlen, if_neg, ← hk, List.drop_left]
    rw [not_not, ← hk, List.take_left]; rfl

theorem hexEncode_append (a b : List UInt8) : hexEncode (a ++ b) = hexEncode a ++ hexEncode b := by
  induction a with
  | nil => rfl
  | cons x xs ih => simp [hexEncode, ih]

theorem key_found {files : List (List UInt8 × Option (List UInt8))} {addr secret : List UInt8}
    (h1 : ethAddress files = .ok addr) (h2 : privKey files addr = .ok secret) : OnlyKey files secret := by
  have hraw : rawPublicKeys files = [addr] := by
    unfold ethAddress at h1
    split at h1
    · injection h1 with h1; subst h1; assumption
    · exact absurd h1 (by simp)
  unfold privKey keyPhrase at h2
  cases e : files.find? (fun f => f.1 == hexEncode ethk ++ hexEncode addr) with
  | none => rw [e] at h2; simp [Out.bind] at h2
  | some f =>
    obtain ⟨name, content⟩ := f
    rw [e] at h2
    cases content with
    | none => simp [Out.bind] at h2
    | some content =>
      simp only [Out.bind] at h2
      cases ek : hexDecode content with
      | none => rw [ek] at h2; simp at h2
      | some key =>
        rw [ek] at h2; dsimp only at h2
        by_cases hl : key.length < 32
        · rw [if_pos hl] at h2; exact absurd h2 (by simp)
        · rw [if_neg hl] at h2
          injection h2 with h2
          have hn : name = hexEncode ethk ++ hexEncode addr := by simpa using List.find?_some e
          refine ⟨addr, content, key, ?_, ?_, ek, by omega, h2.symm⟩
          · intro f hf p hp
            have : p ∈ rawPublicKeys files := mem_rawPublicKeys.2 ⟨f, hf, hp⟩
            rw [hraw] at this; simpa using this
          · rw [hexEncode_append]
            rw [hn] at e
            exact List.mem_of_find?_eq_some e

/-- What one attempt does. -/
theorem sendTx_cases (s : State) (c : Crypto) (t : EthTx) (addr secret : List UInt8) (a : Answers) :
    (∃ r s', sendTx s c t addr secret a = (s', r) ∧ s'.log = s.log ∧ s'.web3 = s.web3 ∧
      (s'.nonce = s.nonce ∨ ∃ n, getNonce s.nonce addr false a.count = .ok n ∧ s'.nonce = some n) ∧
      (r = .panic ∨ ∃ e, r = .ok (.error e) ∧ (getNonce s.nonce addr false a.count = .error e ∨ a.gas = .error e ∨ a.chain = .error e ∨
        a.price = .error e ∨ e = .other))) ∨
    (∃ n gas chain, getNonce s.nonce addr false a.count = .ok n ∧ a.gas = .ok gas ∧ a.chain = .ok chain ∧ addr.length = 20 ∧
      sendTx s c t addr secret a =
        ({ s with nonce := some n, log := s.log ++ [.submitted ⟨secret, n, t.to, t.data, gas, chain⟩
            (a.send ⟨secret, n, t.to, t.data, gas, chain⟩)] },
          .ok (a.send ⟨secret, n, t.to, t.data, gas, chain⟩))) := by
  unfold sendTx
  cases e1 : getNonce s.nonce addr false a.count with
  | error e => left; exact ⟨_, _, rfl, rfl, rfl, .inl rfl, .inr ⟨e, rfl, .inl rfl⟩⟩
  | ok n =>
    dsimp only
    by_cases h20 : addr.length ≠ 20
    · rw [if_pos h20]; left; exact ⟨_, _, rfl, rfl, rfl, .inr ⟨n, rfl, rfl⟩, .inl rfl⟩
    · rw [if_neg h20]
      cases e2 : a.gas with
      | error e => left; exact ⟨_, _, rfl, rfl, rfl, .inr ⟨n, rfl, rfl⟩, .inr ⟨e, rfl, .inr (.inl rfl)⟩⟩
      | ok gas =>
        cases e3 : a.chain with
        | error e => left; exact ⟨_, _, rfl, rfl, rfl, .inr ⟨n, rfl, rfl⟩, .inr ⟨e, rfl, .inr (.inr (.inl rfl))⟩⟩
        | ok chain =>
          dsimp only
          by_cases hv : c.validSecret secret = false
          · rw [if_pos hv]; left
            exact ⟨_, _, rfl, rfl, rfl, .inr ⟨n, rfl, rfl⟩, .inr ⟨.other, rfl, .inr (.inr (.inr (.inr rfl)))⟩⟩
          · rw [if_neg hv]
            cases e4 : a.price with
            | error e => left; exact ⟨_, _, rfl, rfl, rfl, .inr ⟨n, rfl, rfl⟩, .inr ⟨e, rfl, .inr (.inr (.inr (.inl rfl)))⟩⟩
            | ok _ => right; exact ⟨n, gas, chain, rfl, rfl, rfl, not_not.1 h20, rfl⟩

/-- A submission for transaction `t` with key `secret`. -/
def For (t : EthTx) (secret : List UInt8) (o : Obs) : Prop := ∃ tx a, o = .submitted tx a ∧ tx.to = t.to ∧ tx.data = t.data ∧ tx.secret = secret

theorem sendTx_log (s : State) (c : Crypto) (t : EthTx) (addr secret : List UInt8) (a : Answers) :
    ∃ new, (sendTx s c t addr secret a).1.log = s.log ++ new ∧ ∀ o ∈ new, For t secret o := by
  rcases sendTx_cases s c t addr secret a with ⟨r, s', h, hl, -⟩ | ⟨n, gas, chain, -, -, -, -, h⟩
  · exact ⟨[], by rw [h]; simpa using hl, by simp⟩
  · rw [h]
    exact ⟨_, rfl, fun o ho => by rw [List.mem_singleton] at ho; exact ⟨_, _, ho, rfl, rfl, rfl⟩⟩

theorem sendLocked_log (c : Crypto) (s : State) (t : EthTx) (ks : Keystore) (a1 : Answers) (r : Except EthErr Nat) (a2 : Answers) :
    ∃ new, (sendLocked c s t ks a1 r a2).1.log = s.log ++ new ∧
      ∀ o ∈ new, ∃ secret, OnlyKey ks.files secret ∧ For t secret o := by
  unfold sendLocked
  by_cases hw : s.web3 = false
  · rw [if_pos hw]; exact ⟨[], by simp, by simp⟩
  rw [if_neg hw]
  cases e1 : ethAddress ks.files with
  | err => exact ⟨[], by simp, by simp⟩
  | panic => exact ⟨[], by simp, by simp⟩
  | ok addr =>
    dsimp only
    cases e2 : privKey ks.files addr with
    | err => exact ⟨[], by simp, by simp⟩
    | panic => exact ⟨[], by simp, by simp⟩
    | ok secret =>
      dsimp only
      have hk := key_found e1 e2
      obtain ⟨new, hn, hf⟩ := sendTx_log s c t addr secret a1
      have base : ∃ new, (sendTx s c t addr secret a1).1.log = s.log ++ new ∧
          ∀ o ∈ new, ∃ secret, OnlyKey ks.files secret ∧ For t secret o :=
        ⟨new, hn, fun o ho => ⟨secret, hk, hf o ho⟩⟩
      rcases e3 : sendTx s c t addr secret a1 with ⟨s1, o1⟩
      rw [e3] at base hn
      cases o1 with
      | err => exact base
      | panic => exact base
      | ok res =>
        cases res with
        | ok h => exact base
        | error e =>
          cases e with
          | rpc => exact base
          | other => exact base
          | lowNonce =>
            dsimp only
            cases e4 : getNonce s1.nonce addr true r with
            | error e => exact base
            | ok n =>
              dsimp only
              obtain ⟨new2, hn2, hf2⟩ := sendTx_log { s1 with nonce := some n } c t addr secret a2
              have base2 : ∃ new, (sendTx { s1 with nonce := some n } c t addr secret a2).1.log = s.log ++ new ∧
                  ∀ o ∈ new, ∃ secret, OnlyKey ks.files secret ∧ For t secret o := by
                refine ⟨new ++ new2, ?_, fun o ho => ⟨secret, hk, ?_⟩⟩
                · rw [hn2, ← List.append_assoc]; dsimp only at hn ⊢; rw [hn]
                · rcases List.mem_append.1 ho with ho | ho
                  · exact hf o ho
                  · exact hf2 o ho
              rcases e5 : sendTx { s1 with nonce := some n } c t addr secret a2 with ⟨s2, o2⟩
              rw [e5] at base2
              cases o2 with
              | err => exact base2
              | panic => exact base2
              | ok res =>
                cases res with
                | ok h => exact base2
                | error e => exact base2

/-- What a request may add to the log. -/
def Allowed (c : Crypto) : Op → Obs → Prop
  | .sign body auth ks, o => ∃ digest secret, hexDecode body = some digest ∧ digest.length = 32 ∧ Token c ks auth digest ∧
      OnlyKey ks.files secret ∧ o = .signed secret digest (c.ecdsaSign secret digest)
  | .send body auth ks _ _ _ _, o => ∃ t secret, EthTx.decode body = some t ∧ Token c ks auth t.proofData ∧ OnlyKey ks.files secret ∧
      For t secret o
  | _, _ => False

theorem view_state (s : State) (body : List UInt8) (busy : Bool) (call : Except EthErr (List UInt8)) : (view s body busy call).1 = s := by
  unfold view
  split
  · rfl
  split
  · rfl
  split
  · rfl
  split
  · rfl
  split <;> rfl

theorem query_state (s : State) (body : List UInt8) (busy : Bool) (a : Except EthErr (List UInt8)) : (query s body busy a).1 = s := by
  unfold query
  split
  · rfl
  split
  · rfl
  split
  · rfl
  split
  · rfl
  split
  · rfl
  split <;> rfl

theorem handle_log (c : Crypto) (s : State) (op : Op) :
    ∃ new, (handle c s op).1.log = s.log ++ new ∧ ∀ o ∈ new, Allowed c op o := by
  cases op with
  | restart w => exact ⟨[], by simp [handle], by simp⟩
  | view body busy call => exact ⟨[], by simp only [handle, view_state]; simp, by simp⟩
  | query body busy a => exact ⟨[], by simp only [handle, query_state]; simp, by simp⟩
  | sign body auth ks =>
    have none : ∀ r : Response, ∃ new, ((s, r) : State × Response).1.log = s.log ++ new ∧ ∀ o ∈ new, Allowed c (.sign body auth ks) o :=
      fun r => ⟨[], by simp, by simp⟩
    unfold handle signHashed
    dsimp only
    by_cases h1 : body.length > maxBodySize
    · rw [if_pos h1]; exact none _
    rw [if_neg h1]
    cases e : hexDecode body with
    | none => exact none _
    | some msg =>
      dsimp only
      by_cases h2 : msg.length ≠ 32
      · rw [if_pos h2]; exact none _
      rw [if_neg h2]
      by_cases h3 : authorised c ks auth msg = false
      · rw [if_pos h3]; exact none _
      rw [if_neg h3]
      cases e1 : ethAddress ks.files with
      | err => exact none _
      | panic => exact none _
      | ok addr =>
        dsimp only
        cases e2 : privKey ks.files addr with
        | err => exact none _
        | panic => exact none _
        | ok secret =>
          dsimp only
          by_cases h4 : c.validSecret secret = false
          · rw [if_pos h4]; exact none _
          rw [if_neg h4]
          refine ⟨_, rfl, fun o ho => ?_⟩
          rw [List.mem_singleton] at ho
          exact ⟨msg, secret, e, not_not.1 h2, (authorised_iff _ _ _ _).1 (by simpa using h3), key_found e1 e2, ho⟩
  | send body auth ks busy a1 r a2 =>
    have none : ∀ r' : Response, ∃ new, ((s, r') : State × Response).1.log = s.log ++ new ∧
        ∀ o ∈ new, Allowed c (.send body auth ks busy a1 r a2) o := fun r => ⟨[], by simp, by simp⟩
    unfold handle send
    dsimp only
    by_cases h1 : body.length > maxBodySize
    · rw [if_pos h1]; exact none _
    rw [if_neg h1]
    cases e : EthTx.decode body with
    | none => exact none _
    | some t =>
      dsimp only
      by_cases h3 : authorised c ks auth t.proofData = false
      · rw [if_pos h3]; exact none _
      rw [if_neg h3]
      by_cases h4 : busy = true
      · rw [if_pos h4]; exact none _
      rw [if_neg h4]
      obtain ⟨new, hn, hf⟩ := sendLocked_log c s t ks a1 r a2
      refine ⟨new, hn, fun o ho => ?_⟩
      obtain ⟨secret, hk, hfor⟩ := hf o ho
      exact ⟨t, secret, e, (authorised_iff _ _ _ _).1 (by simpa using h3), hk, hfor⟩

theorem run_snoc (c : Crypto) (s : State) (ops : List Op) (op : Op) : run c s (ops ++ [op]) = (handle c (run c s ops) op).1 := by
  simp [run]

theorem run_log (c : Crypto) (s : State) (ops : List Op) (o : Obs) (ho : o ∈ (run c s ops).log) :
    o ∈ s.log ∨ ∃ op ∈ ops, Allowed c op o := by
  induction ops using List.reverseRecOn with
  | nil => exact .inl ho
  | append_singleton ops op ih =>
    rw [run_snoc] at ho
    obtain ⟨new, hn, hf⟩ := handle_log c (run c s ops) op
    rw [hn] at ho
    rcases List.mem_append.1 ho with ho | ho
    · rcases ih ho with h | ⟨op', h1, h2⟩
      · exact .inl h
      · exact .inr ⟨op', by simp [h1], h2⟩
    · exact .inr ⟨op, by simp, hf o ho⟩

/-! ## C102 -/

/-- **C102, signatures.** Over any history of requests and restarts, whatever the service signed with an Ethereum key is the 32-byte
digest of a request carrying a token for exactly that digest by one of the node's own keys, and the key is the node's only one. -/
theorem C102_signatures_are_authorised (c : Crypto) (s : State) (hs : s.log = []) (ops : List Op) (secret digest : List UInt8)
    (sig : Bytes 65) (h : .signed secret digest sig ∈ (run c s ops).log) :
    ∃ body auth ks, .sign body auth ks ∈ ops ∧ hexDecode body = some digest ∧ digest.length = 32 ∧ Token c ks auth digest ∧
      OnlyKey ks.files secret ∧ sig = c.ecdsaSign secret digest := by
  rcases run_log c s ops _ h with h | ⟨op, hop, ha⟩
  · rw [hs] at h; simp at h
  · cases op with
    | sign body auth ks =>
      obtain ⟨d, sec, h1, h2, h3, h4, h5⟩ := ha
      injection h5 with h5 h6 h7
      subst h5 h6
      exact ⟨body, auth, ks, hop, h1, h2, h3, h4, h7⟩
    | send =>
      obtain ⟨t, sec, -, -, -, tx, a, h5, -⟩ := ha
      exact absurd h5 (by simp)
    | _ => exact ha.elim

/-- **C102, transactions.** Whatever the service handed to Ethereum is addressed and has the data of a request carrying a token for
exactly that sender, target and data by one of the node's own keys, signed with the node's only Ethereum key. -/
theorem C102_transactions_are_authorised (c : Crypto) (s : State) (hs : s.log = []) (ops : List Op) (tx : Submission)
    (answer : Except EthErr Hash) (h : .submitted tx answer ∈ (run c s ops).log) :
    ∃ body auth ks busy a1 r a2 t, .send body auth ks busy a1 r a2 ∈ ops ∧ EthTx.decode body = some t ∧
      Token c ks auth (t.sender.toList ++ t.to.toList ++ scaleBytes t.data) ∧ tx.to = t.to ∧ tx.data = t.data ∧
      OnlyKey ks.files tx.secret := by
  rcases run_log c s ops _ h with h | ⟨op, hop, ha⟩
  · rw [hs] at h; simp at h
  · cases op with
    | send body auth ks busy a1 r a2 =>
      obtain ⟨t, secret, h1, h2, h3, tx', a, h4, h5, h6, h7⟩ := ha
      injection h4 with h4 h8
      subst h4
      refine ⟨body, auth, ks, busy, a1, r, a2, t, hop, h1, ?_, h5, h6, ?_⟩
      · have : t.proofData = t.sender.toList ++ t.to.toList ++ scaleBytes t.data := by
          unfold EthTx.proofData; rw [List.append_assoc]
        rwa [this] at h2
      · rw [h7]; exact h3
    | sign =>
      obtain ⟨d, sec, -, -, -, -, h5⟩ := ha
      exact absurd h5 (by simp)
    | _ => exact ha.elim

/-- **C102, specific.** A token for one transaction authorises no other sender, target or data, and no signature: the authorised bytes
determine the three, and are never as long as a digest. -/
theorem C102_authorisations_are_specific (t u : EthTx) (ht : t.data.length < pow32) (hu : u.data.length < pow32) :
    (t.proofData = u.proofData → t.sender = u.sender ∧ t.to = u.to ∧ t.data = u.data) ∧ t.proofData.length ≠ 32 := by
  refine ⟨fun h => ?_, ?_⟩
  · unfold EthTx.proofData at h
    obtain ⟨h1, h2⟩ := vec_split h
    obtain ⟨h3, h4⟩ := vec_split h2
    have h5 : scaleBytes t.data ++ [] = scaleBytes u.data ++ [] := by rw [h4]
    exact ⟨h1, h3, (scaleBytes_split ht hu h5).1⟩
  · unfold EthTx.proofData
    simp only [List.length_append, Vector.length_toList]
    omega

/-! ### One request, in full -/

/-- The nonce used: the cached one, or the count Ethereum answers. -/
def NextNonce (k : Option Nat) (count : Except EthErr Nat) (n : Nat) : Prop :=
  k = some n ∨ (k = none ∧ ∃ m, count = .ok m ∧ n = m % pow64)

inductive Attempt (k : Option Nat) (t : EthTx) (secret : List UInt8) (a : Answers) : Option Nat → List Obs → Out (Except EthErr Hash) → Prop
  | quiet (k' : Option Nat) (r : Out (Except EthErr Hash)) (hk : k' = k ∨ ∃ n, NextNonce k a.count n ∧ k' = some n)
      (hr : r = .panic ∨ ∃ e, r = .ok (.error e) ∧
        (e = .lowNonce → a.count = .error .lowNonce ∨ a.gas = .error .lowNonce ∨ a.chain = .error .lowNonce ∨ a.price = .error .lowNonce)) :
      Attempt k t secret a k' [] r
  | sent (n gas chain : Nat) (hn : NextNonce k a.count n) :
      Attempt k t secret a (some n)
        [.submitted ⟨secret, n, t.to, t.data, gas, chain⟩ (a.send ⟨secret, n, t.to, t.data, gas, chain⟩)]
        (.ok (a.send ⟨secret, n, t.to, t.data, gas, chain⟩))

theorem getNonce_ok {k : Option Nat} {addr : List UInt8} {count : Except EthErr Nat} {n : Nat} (h : getNonce k addr false count = .ok n) :
    NextNonce k count n := by
  cases k with
  | some m =>
    left
    have : getNonce (some m) addr false count = .ok m := rfl
    rw [this] at h; injection h with h; rw [h]
  | none =>
    right
    refine ⟨rfl, ?_⟩
    have e : getNonce none addr false count = if addr.length ≠ 20 then .error .other else count.map (· % pow64) := rfl
    rw [e] at h
    by_cases h20 : addr.length ≠ 20
    · rw [if_pos h20] at h; exact absurd h (by simp)
    · rw [if_neg h20] at h
      cases count with
      | error e => simp [Except.map] at h
      | ok m => exact ⟨m, rfl, by simp [Except.map] at h; exact h.symm⟩

theorem getNonce_err {k : Option Nat} {addr : List UInt8} {count : Except EthErr Nat}
    (h : getNonce k addr false count = .error .lowNonce) : count = .error .lowNonce := by
  cases k with
  | some m =>
    have : getNonce (some m) addr false count = .ok m := rfl
    rw [this] at h; exact absurd h (by simp)
  | none =>
    have e : getNonce none addr false count = if addr.length ≠ 20 then .error .other else count.map (· % pow64) := rfl
    rw [e] at h
    by_cases h20 : addr.length ≠ 20
    · rw [if_pos h20] at h; exact absurd h (by simp)
    · rw [if_neg h20] at h
      cases count with
      | error e => simp [Except.map] at h; rw [h]
      | ok m => simp [Except.map] at h

theorem getNonce_forced {k : Option Nat} {addr : List UInt8} {count : Except EthErr Nat} {n : Nat} (h : getNonce k addr true count = .ok n) :
    ∃ m, count = .ok m ∧ n = m % pow64 := by
  have e : getNonce k addr true count = if addr.length ≠ 20 then .error .other else count.map (· % pow64) := by
    cases k <;> rfl
  rw [e] at h
  by_cases h20 : addr.length ≠ 20
  · rw [if_pos h20] at h; exact absurd h (by simp)
  · rw [if_neg h20] at h
    cases count with
    | error e => simp [Except.map] at h
    | ok m => exact ⟨m, rfl, by simp [Except.map] at h; exact h.symm⟩

theorem sendTx_attempt (s : State) (c : Crypto) (t : EthTx) (addr secret : List UInt8) (a : Answers) :
    ∃ k' new r, sendTx s c t addr secret a = (⟨s.web3, k', s.log ++ new⟩, r) ∧ Attempt s.nonce t secret a k' new r := by
  rcases sendTx_cases s c t addr secret a with ⟨r, s', h, hl, hw, hk, hr⟩ | ⟨n, gas, chain, hn, -, -, -, h⟩
  · refine ⟨s'.nonce, [], r, ?_, .quiet _ _ ?_ ?_⟩
    · rw [h, List.append_nil, ← hl, ← hw]
    · rcases hk with hk | ⟨n, h1, h2⟩
      · exact .inl hk
      · exact .inr ⟨n, getNonce_ok h1, h2⟩
    · rcases hr with hr | ⟨e, hr, he⟩
      · exact .inl hr
      · refine .inr ⟨e, hr, fun hlow => ?_⟩
        subst hlow
        rcases he with he | he | he | he | he
        · exact .inl (getNonce_err he)
        · exact .inr (.inl he)
        · exact .inr (.inr (.inl he))
        · exact .inr (.inr (.inr he))
        · exact absurd he (by simp)
  · exact ⟨_, _, _, h, .sent n gas chain (getNonce_ok hn)⟩

/-- Outcome of a whole `send` request: new cached nonce, what was handed over, the answer. -/
inductive Request (k : Option Nat) (t : EthTx) (secret : List UInt8) (a1 : Answers) (r : Except EthErr Nat) (a2 : Answers) :
    Option Nat → List Obs → Response → Prop
  | once (k1 : Option Nat) (new : List Obs) (o : Out (Except EthErr Hash)) (resp : Response) (h : Attempt k t secret a1 k1 new o)
      (ho : ∀ h, o ≠ .ok (.ok h)) (hr : ∀ b, resp ≠ .ok b) : Request k t secret a1 r a2 k1 new resp
  | accepted (k1 : Option Nat) (new : List Obs) (h : Hash) (ha : Attempt k t secret a1 k1 new (.ok (.ok h))) :
      Request k t secret a1 r a2 (k1.map (· + 1)) new (.ok (hexEncode h.toList))
  | twice (k1 k2 : Option Nat) (new new2 : List Obs) (m : Nat) (o : Out (Except EthErr Hash)) (resp : Response)
      (h : Attempt k t secret a1 k1 new (.ok (.error .lowNonce))) (hm : r = .ok m) (h2 : Attempt (some (m % pow64)) t secret a2 k2 new2 o)
      (ho : ∀ h, o ≠ .ok (.ok h)) (hr : ∀ b, resp ≠ .ok b) : Request k t secret a1 r a2 k2 (new ++ new2) resp
  | acceptedTwice (k1 k2 : Option Nat) (new new2 : List Obs) (m : Nat) (h : Hash)
      (ha : Attempt k t secret a1 k1 new (.ok (.error .lowNonce))) (hm : r = .ok m)
      (h2 : Attempt (some (m % pow64)) t secret a2 k2 new2 (.ok (.ok h))) :
      Request k t secret a1 r a2 (k2.map (· + 1)) (new ++ new2) (.ok (hexEncode h.toList))

theorem sendLocked_request (c : Crypto) (s : State) (t : EthTx) (ks : Keystore) (a1 : Answers) (r : Except EthErr Nat) (a2 : Answers) :
    ((sendLocked c s t ks a1 r a2).1 = s ∧ ∀ b, (sendLocked c s t ks a1 r a2).2 ≠ .ok b) ∨
    ∃ secret k' new resp, sendLocked c s t ks a1 r a2 = (⟨s.web3, k', s.log ++ new⟩, resp) ∧
      Request s.nonce t secret a1 r a2 k' new resp := by
  unfold sendLocked
  by_cases hw : s.web3 = false
  · rw [if_pos hw]; left; exact ⟨rfl, by simp⟩
  rw [if_neg hw]
  cases e1 : ethAddress ks.files with
  | err => left; exact ⟨rfl, by simp⟩
  | panic => left; exact ⟨rfl, by simp⟩
  | ok addr =>
    dsimp only
    cases e2 : privKey ks.files addr with
    | err => left; exact ⟨rfl, by simp⟩
    | panic => left; exact ⟨rfl, by simp⟩
    | ok secret =>
      dsimp only
      right
      refine ⟨secret, ?_⟩
      obtain ⟨k1, new, o, h1, ha⟩ := sendTx_attempt s c t addr secret a1
      rw [h1]
      cases o with
      | err => exact ⟨k1, new, _, rfl, .once _ _ _ _ ha (by simp) (by simp)⟩
      | panic => exact ⟨k1, new, _, rfl, .once _ _ _ _ ha (by simp) (by simp)⟩
      | ok res =>
        cases res with
        | ok h => exact ⟨_, new, _, rfl, .accepted _ _ _ ha⟩
        | error e =>
          cases e with
          | rpc => exact ⟨k1, new, _, rfl, .once _ _ _ _ ha (by simp) (by simp)⟩
          | other => exact ⟨k1, new, _, rfl, .once _ _ _ _ ha (by simp) (by simp)⟩
          | lowNonce =>
            dsimp only
            cases e4 : getNonce k1 addr true r with
            | error e => exact ⟨k1, new, _, rfl, .once _ _ _ _ ha (by simp) (by simp)⟩
            | ok n =>
              dsimp only
              obtain ⟨m, hm, rfl⟩ := getNonce_forced e4
              obtain ⟨k2, new2, o2, h2, ha2⟩ := sendTx_attempt ⟨s.web3, some (m % pow64), s.log ++ new⟩ c t addr secret a2
              rw [h2]
              cases o2 with
              | err => exact ⟨k2, new ++ new2, _, by rw [List.append_assoc], .twice _ _ _ _ _ _ _ ha hm ha2 (by simp) (by simp)⟩
              | panic => exact ⟨k2, new ++ new2, _, by rw [List.append_assoc], .twice _ _ _ _ _ _ _ ha hm ha2 (by simp) (by simp)⟩
              | ok res =>
                cases res with
                | ok h =>
                  exact ⟨_, new ++ new2, _, by rw [List.append_assoc]; rfl, .acceptedTwice _ _ _ _ _ _ ha hm ha2⟩
                | error e => exact ⟨k2, new ++ new2, _, by rw [List.append_assoc], .twice _ _ _ _ _ _ _ ha hm ha2 (by simp) (by simp)⟩

theorem send_request (c : Crypto) (s : State) (body : List UInt8) (auth : Option (List UInt8)) (ks : Keystore) (busy : Bool)
    (a1 : Answers) (r : Except EthErr Nat) (a2 : Answers) :
    ((send c s body auth ks busy a1 r a2).1 = s ∧ ∀ b, (send c s body auth ks busy a1 r a2).2 ≠ .ok b) ∨
    ∃ t secret k' new resp, EthTx.decode body = some t ∧
      send c s body auth ks busy a1 r a2 = (⟨s.web3, k', s.log ++ new⟩, resp) ∧ Request s.nonce t secret a1 r a2 k' new resp := by
  unfold send
  by_cases h1 : body.length > maxBodySize
  · rw [if_pos h1]; left; exact ⟨rfl, by simp⟩
  rw [if_neg h1]
  cases e : EthTx.decode body with
  | none => left; exact ⟨rfl, by simp⟩
  | some t =>
    dsimp only
    by_cases h3 : authorised c ks auth t.proofData = false
    · rw [if_pos h3]; left; exact ⟨rfl, by simp⟩
    rw [if_neg h3]
    by_cases h4 : busy = true
    · rw [if_pos h4]; left; exact ⟨rfl, by simp⟩
    rw [if_neg h4]
    rcases sendLocked_request c s t ks a1 r a2 with h | ⟨secret, k', new, resp, h, hr⟩
    · exact .inl h
    · exact .inr ⟨t, secret, k', new, resp, rfl, h, hr⟩

/-- **C102, one transaction.** A `send` request hands over at most two raw transactions, the second only after the first was refused for
its nonce, and they only differ in nonce, gas and chain; at most one is accepted, and then — only then — the request succeeds, with that
transaction's hash. -/
theorem C102_one_transaction_per_request (c : Crypto) (s : State) (body : List UInt8) (auth : Option (List UInt8)) (ks : Keystore)
    (busy : Bool) (a1 : Answers) (r : Except EthErr Nat) (a2 : Answers) :
    ∃ new, (handle c s (.send body auth ks busy a1 r a2)).1.log = s.log ++ new ∧
      ((new = [] ∧ ∀ b, (handle c s (.send body auth ks busy a1 r a2)).2 ≠ .ok b) ∨
       (∃ tx e, new = [.submitted tx (.error e)] ∧ ∀ b, (handle c s (.send body auth ks busy a1 r a2)).2 ≠ .ok b) ∨
       (∃ tx h, new = [.submitted tx (.ok h)] ∧ (handle c s (.send body auth ks busy a1 r a2)).2 = .ok (hexEncode h.toList)) ∨
       (∃ tx tx' e, new = [.submitted tx (.error .lowNonce), .submitted tx' (.error e)] ∧ tx'.to = tx.to ∧ tx'.data = tx.data ∧
          tx'.secret = tx.secret ∧ ∀ b, (handle c s (.send body auth ks busy a1 r a2)).2 ≠ .ok b) ∨
       (∃ tx tx' h, new = [.submitted tx (.error .lowNonce), .submitted tx' (.ok h)] ∧ tx'.to = tx.to ∧ tx'.data = tx.data ∧
          tx'.secret = tx.secret ∧ (handle c s (.send body auth ks busy a1 r a2)).2 = .ok (hexEncode h.toList))) := by
  have hh : handle c s (.send body auth ks busy a1 r a2) = send c s body auth ks busy a1 r a2 := rfl
  rw [hh]
  rcases send_request c s body auth ks busy a1 r a2 with ⟨h1, h2⟩ | ⟨t, secret, k', new, resp, -, hsq, hr⟩
  · exact ⟨[], by rw [h1, List.append_nil], .inl ⟨rfl, h2⟩⟩
  · rw [hsq]
    refine ⟨new, rfl, ?_⟩
    dsimp only
    clear hsq
    have one : ∀ {k k1 new o a}, Attempt k t secret a k1 new o →
        (new = [] ∧ ∀ h, o ≠ .ok (.ok h)) ∨ ∃ n gas chain ans, new = [.submitted ⟨secret, n, t.to, t.data, gas, chain⟩ ans] ∧ o = .ok ans := by
      intro k k1 new o a ha
      cases ha with
      | quiet _ _ _ hr =>
        left
        refine ⟨rfl, fun h hh => ?_⟩
        rcases hr with hr | ⟨e, hr, -⟩ <;> rw [hr] at hh <;> simp at hh
      | sent n gas chain hn => right; exact ⟨n, gas, chain, _, rfl, rfl⟩
    cases hr with
    | once _ _ o _ ha ho hresp =>
      rcases one ha with ⟨h1, -⟩ | ⟨n, gas, chain, ans, h1, h2⟩
      · exact .inl ⟨h1, hresp⟩
      · cases ans with
        | ok h => exact absurd h2 (ho h)
        | error e => exact .inr (.inl ⟨_, e, h1, hresp⟩)
    | accepted k1 _ h ha =>
      rcases one ha with ⟨-, h1⟩ | ⟨n, gas, chain, ans, h1, h2⟩
      · exact absurd rfl (h1 h)
      · injection h2 with h2; subst h2
        exact .inr (.inr (.inl ⟨_, h, h1, rfl⟩))
    | twice k1 _ new1 new2 m o _ ha hm ha2 ho hresp =>
      rcases one ha with ⟨h1, -⟩ | ⟨n, gas, chain, ans, h1, h2⟩
      · rcases one ha2 with ⟨h3, -⟩ | ⟨n', gas', chain', ans', h3, h4⟩
        · exact .inl ⟨by rw [h1, h3]; rfl, hresp⟩
        · cases ans' with
          | ok h => exact absurd h4 (ho h)
          | error e => exact .inr (.inl ⟨_, e, by rw [h1, h3]; rfl, hresp⟩)
      · injection h2 with h2; subst h2
        rcases one ha2 with ⟨h3, -⟩ | ⟨n', gas', chain', ans', h3, h4⟩
        · exact .inr (.inl ⟨_, _, by rw [h1, h3]; rfl, hresp⟩)
        · cases ans' with
          | ok h => exact absurd h4 (ho h)
          | error e => exact .inr (.inr (.inr (.inl ⟨⟨secret, n, t.to, t.data, gas, chain⟩, ⟨secret, n', t.to, t.data, gas', chain'⟩, e, by rw [h1, h3]; rfl, rfl, rfl, rfl, hresp⟩)))
    | acceptedTwice k1 k2 new1 new2 m h ha hm ha2 =>
      rcases one ha2 with ⟨-, h3⟩ | ⟨n', gas', chain', ans', h3, h4⟩
      · exact absurd rfl (h3 h)
      · injection h4 with h4; subst h4
        rcases one ha with ⟨h1, -⟩ | ⟨n, gas, chain, ans, h1, h2⟩
        · exact .inr (.inr (.inl ⟨_, h, by rw [h1, h3]; rfl, rfl⟩))
        · injection h2 with h2; subst h2
          exact .inr (.inr (.inr (.inr ⟨⟨secret, n, t.to, t.data, gas, chain⟩, ⟨secret, n', t.to, t.data, gas', chain'⟩, h, by rw [h1, h3]; rfl, rfl, rfl, rfl, rfl⟩)))

/-! ### Requests of the node's own worker -/

theorem decode_encode (t : EthTx) (hd : t.data.length < pow32) (hb : ∀ b, t.block = some b → b < pow32) :
    EthTx.decode t.encode = some t := by
  obtain ⟨sender, target, data, block⟩ := t
  dsimp only at hd hb
  have h1 : ∀ rest, Lower.toBytes? 32 ((sender.toList ++ rest).take 32) = some sender := by
    intro rest
    rw [List.take_left' (by simp), TokenManager.toBytes?_toList]
  have h2 : ∀ rest, (sender.toList ++ rest).drop 32 = rest := fun rest => List.drop_left' (by simp)
  have h3 : ∀ rest, Lower.toBytes? 20 ((target.toList ++ rest).take 20) = some target := by
    intro rest
    rw [List.take_left' (by simp), TokenManager.toBytes?_toList]
  have h4 : ∀ rest, (sender.toList ++ (target.toList ++ rest)).drop 52 = rest := by
    intro rest
    rw [← List.append_assoc]
    exact List.drop_left' (by simp)
  unfold EthTx.decode EthTx.encode
  simp only [h1, h2, h3, h4, EventCheck.decodeVec_scaleBytes _ _ hd, Option.bind_eq_bind, Option.bind_some]
  cases block with
  | none => simp
  | some b =>
    have hb' := hb b rfl
    have : leVal (leBytes 4 b) = b := leVal_leBytes _ _ (by simpa [pow32] using hb')
    have h5 : List.take 4 (leBytes 4 b) = leBytes 4 b := List.take_of_length_le (by simp)
    simp [h5, this]

/-- The keystore holds exactly one Ethereum key: 20-byte address `pub`, secret the first 32 bytes of `key`. -/
structure OneKey (files : List (List UInt8 × Option (List UInt8))) (pub key : List UInt8) : Prop where
  split : ∃ pre content post, files = pre ++ (hexEncode (ascii "ethk" ++ pub), some content) :: post ∧ hexDecode content = some key ∧
    (∀ f ∈ pre, ∀ p, ¬ KeyFile f p) ∧ (∀ f ∈ post, ∀ p, ¬ KeyFile f p)
  pub_length : pub.length = 20
  key_length : 32 ≤ key.length

theorem OneKey.keyFile {pub : List UInt8} (h : pub.length = 20) (x : Option (List UInt8)) :
    KeyFile (hexEncode (ascii "ethk" ++ pub), x) pub :=
  ⟨fun hp => by rw [hp] at h; simp at h, Calldata.hexDecode_encode _⟩

theorem raw_nil {files : List (List UInt8 × Option (List UInt8))} (h : ∀ f ∈ files, ∀ p, ¬ KeyFile f p) : rawPublicKeys files = [] := by
  rw [List.eq_nil_iff_forall_not_mem]
  intro p hp
  obtain ⟨f, hf, hk⟩ := mem_rawPublicKeys.1 hp
  exact h f hf p hk

theorem OneKey.found {files : List (List UInt8 × Option (List UInt8))} {pub key : List UInt8} (h : OneKey files pub key) :
    ethAddress files = .ok pub ∧ privKey files pub = .ok (key.take 32) := by
  obtain ⟨⟨pre, content, post, rfl, hc, hpre, hpost⟩, hp, hk⟩ := h
  have hraw : rawPublicKeys (pre ++ (hexEncode (ascii "ethk" ++ pub), some content) :: post) = [pub] := by
    have e : rawPublicKeys (pre ++ (hexEncode (ascii "ethk" ++ pub), some content) :: post) =
        rawPublicKeys pre ++ (rawPublicKeys [(hexEncode (ascii "ethk" ++ pub), some content)] ++ rawPublicKeys post) := by
      unfold rawPublicKeys
      rw [List.filterMap_append, ← List.singleton_append, List.filterMap_append]
    rw [e, raw_nil hpre, raw_nil hpost, List.append_nil, List.nil_append]
    unfold rawPublicKeys
    have hl : (ascii "ethk" ++ pub).length > 4 := by rw [List.length_append, hp]; omega
    have h4 : (ascii "ethk").length = 4 := by decide
    rw [List.filterMap_cons_some (b := pub)]
    · rfl
    · dsimp only
      rw [Calldata.hexDecode_encode]; dsimp only
      rw [if_pos hl, if_neg, ← h4, List.drop_left]
      rw [not_not, ← h4, List.take_left]; rfl
  refine ⟨by unfold ethAddress; rw [hraw], ?_⟩
  unfold privKey keyPhrase
  have hf : List.find? (fun f => f.1 == hexEncode ethk ++ hexEncode pub) (pre ++ (hexEncode (ascii "ethk" ++ pub), some content) :: post) =
      some (hexEncode (ascii "ethk" ++ pub), some content) := by
    rw [List.find?_append, List.find?_eq_none.2, Option.none_or, List.find?_cons_of_pos]
    · rw [hexEncode_append]; simp [ethk]
    · intro f hfm hn
      have : f.1 = hexEncode (ascii "ethk" ++ pub) := by rw [hexEncode_append]; simpa [ethk] using hn
      exact hpre f hfm pub ⟨(OneKey.keyFile hp none).1, by rw [this]; exact Calldata.hexDecode_encode _⟩
  rw [hf]
  simp only [Out.bind]
  rw [hc]; dsimp only
  rw [if_neg (by omega)]

/-- **C102, own signatures.** The worker's request to sign a digest (token: the digest signed with one of the node's keys) is answered
with the node's Ethereum signature of it, in hex. -/
theorem C102_own_signing_requests_are_served (c : Crypto) (s : State) (ks : Keystore) (k : Nat) (digest sig : List UInt8)
    (pub key : List UInt8) (hd : digest.length = 32) (hs : sig.length = 64) (hk : k ∈ ks.avnKeys) (hv : c.srVerify k digest sig = true)
    (hkey : OneKey ks.files pub key) (hsec : c.validSecret (key.take 32) = true) :
    (handle c s (.sign (hexEncode digest) (some (hexEncode sig)) ks)).2 = .ok (hexEncode (c.ecdsaSign (key.take 32) digest).toList) := by
  obtain ⟨h1, h2⟩ := hkey.found
  have ha : authorised c ks (some (hexEncode sig)) digest = true := by
    rw [authorised_iff]
    refine ⟨_, sig, k, rfl, ?_, by omega, hk, ?_⟩
    · rw [trim_hexEncode, Calldata.hexDecode_encode]
    · rw [← hs, List.take_length]; exact hv
  unfold handle signHashed
  dsimp only
  rw [if_neg (by rw [Calldata.hexEncode_length, hd]; unfold maxBodySize; omega), Calldata.hexDecode_encode]
  dsimp only
  rw [if_neg (by omega), if_neg (by rw [ha]; simp), h1]
  dsimp only
  rw [h2]
  dsimp only
  rw [if_neg (by rw [hsec]; simp)]

/-- **C102, own transactions.** The worker's request to send a transaction is handed to Ethereum — sender's key, target, data and
estimated gas — and, when Ethereum accepts it, answered with the hash, which the worker reads back. -/
theorem C102_own_transactions_are_sent (c : Crypto) (s : State) (ks : Keystore) (k : Nat) (t : EthTx) (sig pub key : List UInt8)
    (a1 a2 : Answers) (r : Except EthErr Nat) (n gas chain price : Nat) (h : Hash)
    (hsize : t.encode.length ≤ maxBodySize) (hblock : ∀ b, t.block = some b → b < pow32)
    (hs : sig.length = 64) (hk : k ∈ ks.avnKeys) (hv : c.srVerify k (t.sender.toList ++ t.to.toList ++ scaleBytes t.data) sig = true)
    (hkey : OneKey ks.files pub key) (hsec : c.validSecret (key.take 32) = true) (hweb : s.web3 = true)
    (hn : s.nonce = some n ∨ (s.nonce = none ∧ a1.count = .ok n ∧ n < pow64))
    (hg : a1.gas = .ok gas) (hc : a1.chain = .ok chain) (hp : a1.price = .ok price)
    (hsend : a1.send ⟨key.take 32, n, t.to, t.data, gas, chain⟩ = .ok h) :
    (handle c s (.send t.encode (some (hexEncode sig)) ks false a1 r a2)).1 =
        { s with nonce := some (n + 1), log := s.log ++ [.submitted ⟨key.take 32, n, t.to, t.data, gas, chain⟩ (.ok h)] } ∧
      (handle c s (.send t.encode (some (hexEncode sig)) ks false a1 r a2)).2 = .ok (hexEncode h.toList) ∧
      Calldata.processTxHash (hexEncode h.toList) = some h := by
  obtain ⟨h1, h2⟩ := hkey.found
  have hdl : t.data.length < pow32 := by
    have : t.data.length ≤ t.encode.length := by
      unfold EthTx.encode scaleBytes; simp only [List.length_append]; omega
    unfold maxBodySize at hsize; unfold pow32; omega
  have hpd : t.proofData = t.sender.toList ++ t.to.toList ++ scaleBytes t.data := by
    unfold EthTx.proofData; rw [List.append_assoc]
  have ha : authorised c ks (some (hexEncode sig)) t.proofData = true := by
    rw [authorised_iff]
    refine ⟨_, sig, k, rfl, ?_, by omega, hk, ?_⟩
    · rw [trim_hexEncode, Calldata.hexDecode_encode]
    · rw [← hs, List.take_length, hpd]; exact hv
  have hnonce : getNonce s.nonce pub false a1.count = .ok n := by
    rcases hn with hn | ⟨hn, hcount, hlt⟩
    · rw [hn]; rfl
    · rw [hn, hcount]
      have e : getNonce none pub false (.ok n) = if pub.length ≠ 20 then .error .other else (Except.ok n : Except EthErr Nat).map (· % pow64) := rfl
      rw [e, if_neg (by rw [hkey.pub_length]; simp)]
      simp [Except.map, Nat.mod_eq_of_lt hlt]
  have htx : sendTx s c t pub (key.take 32) a1 =
      ({ s with nonce := some n, log := s.log ++ [.submitted ⟨key.take 32, n, t.to, t.data, gas, chain⟩ (.ok h)] }, .ok (.ok h)) := by
    unfold sendTx
    rw [hnonce]; dsimp only
    rw [if_neg (by rw [hkey.pub_length]; simp), hg, hc]; dsimp only
    rw [if_neg (by rw [hsec]; simp), hp]; dsimp only
    rw [hsend]
  have hall : handle c s (.send t.encode (some (hexEncode sig)) ks false a1 r a2) =
      ({ s with nonce := some (n + 1), log := s.log ++ [.submitted ⟨key.take 32, n, t.to, t.data, gas, chain⟩ (.ok h)] },
        .ok (hexEncode h.toList)) := by
    unfold handle send
    dsimp only
    rw [if_neg (by omega), decode_encode t hdl hblock]; dsimp only
    rw [if_neg (by rw [ha]; simp), if_neg (by simp)]
    unfold sendLocked
    rw [if_neg (by rw [hweb]; simp), h1]; dsimp only
    rw [h2]; dsimp only
    rw [htx]
    rfl
  rw [hall]
  exact ⟨rfl, rfl, Calldata.C86_tx_hash_is_read h⟩

/-- **C102, replay (finding N4).** Nothing in an authorised request makes it usable only once: whatever token authorises a request
authorises it again at any later time, in any state of the service. -/
theorem C102_tokens_can_be_replayed (c : Crypto) (s s' : State) (ks : Keystore) (body : List UInt8) (auth : Option (List UInt8))
    (b : List UInt8) (h : (handle c s (.sign body auth ks)).2 = .ok b) : (handle c s' (.sign body auth ks)).2 = .ok b := by
  unfold handle signHashed at h ⊢
  dsimp only at h ⊢
  by_cases h1 : body.length > maxBodySize
  · rw [if_pos h1] at h; exact absurd h (by simp)
  rw [if_neg h1] at h ⊢
  cases e : hexDecode body with
  | none => rw [e] at h; exact absurd h (by simp)
  | some msg =>
    rw [e] at h
    dsimp only at h ⊢
    by_cases h2 : msg.length ≠ 32
    · rw [if_pos h2] at h; exact absurd h (by simp)
    rw [if_neg h2] at h ⊢
    by_cases h3 : authorised c ks auth msg = false
    · rw [if_pos h3] at h; exact absurd h (by simp)
    rw [if_neg h3] at h ⊢
    cases e1 : ethAddress ks.files with
    | err => rw [e1] at h; exact absurd h (by simp)
    | panic => rw [e1] at h; exact absurd h (by simp)
    | ok addr =>
      rw [e1] at h
      dsimp only at h ⊢
      cases e2 : privKey ks.files addr with
      | err => rw [e2] at h; exact absurd h (by simp)
      | panic => rw [e2] at h; exact absurd h (by simp)
      | ok secret =>
        rw [e2] at h
        dsimp only at h ⊢
        by_cases h4 : c.validSecret secret = false
        · rw [if_pos h4] at h; exact absurd h (by simp)
        rw [if_neg h4] at h ⊢
        exact h

/-! ## C103 -/

/-- **C103, sending.** A `send` request whose token is not a signature of its own sender, target and data by one of the node's keys is
answered with an error and changes nothing. -/
theorem C103_unauthorised_transactions_are_refused (c : Crypto) (s : State) (body : List UInt8) (auth : Option (List UInt8))
    (ks : Keystore) (busy : Bool) (a1 : Answers) (r : Except EthErr Nat) (a2 : Answers)
    (h : ∀ t, EthTx.decode body = some t → ¬ Token c ks auth (t.sender.toList ++ t.to.toList ++ scaleBytes t.data)) :
    handle c s (.send body auth ks busy a1 r a2) = (s, .err) := by
  unfold handle send
  dsimp only
  by_cases h1 : body.length > maxBodySize
  · rw [if_pos h1]
  rw [if_neg h1]
  cases e : EthTx.decode body with
  | none => rfl
  | some t =>
    dsimp only
    have h2 := h t e
    have hpd : t.proofData = t.sender.toList ++ t.to.toList ++ scaleBytes t.data := by
      unfold EthTx.proofData; rw [List.append_assoc]
    rw [← hpd, ← authorised_iff] at h2
    rw [if_pos (by simpa using h2)]

/-- **C103, signing (partial).** A `sign` request whose token is not a signature of the digest by one of the node's keys changes nothing
and is not served; it is answered with an error **if** its body is not the hex of some other number of bytes than 32. -/
theorem C103_unauthorised_signing_is_refused_partial (c : Crypto) (s : State) (body : List UInt8) (auth : Option (List UInt8))
    (ks : Keystore) (h : ∀ d, hexDecode body = some d → ¬ Token c ks auth d) :
    (handle c s (.sign body auth ks)).1 = s ∧ (∀ b, (handle c s (.sign body auth ks)).2 ≠ .ok b) ∧
      ((∀ d, hexDecode body = some d → d.length = 32) → (handle c s (.sign body auth ks)).2 = .err) := by
  unfold handle signHashed
  dsimp only
  by_cases h1 : body.length > maxBodySize
  · rw [if_pos h1]; exact ⟨rfl, by simp, fun _ => rfl⟩
  rw [if_neg h1]
  cases e : hexDecode body with
  | none => exact ⟨rfl, by simp, fun _ => rfl⟩
  | some d =>
    dsimp only
    by_cases h2 : d.length ≠ 32
    · rw [if_pos h2]; exact ⟨rfl, by simp, fun hl => absurd (hl d rfl) h2⟩
    rw [if_neg h2]
    have h3 := h d e
    rw [← authorised_iff] at h3
    rw [if_pos (by simpa using h3)]
    exact ⟨rfl, by simp, fun _ => rfl⟩

/-- **C103, what is missing (finding N1).** The digest is read before the token is looked at, and reading one that is not 32 bytes long
panics: anybody who can reach the port, with no token at all, makes the handler panic. -/
theorem C103_unauthenticated_panic (c : Crypto) (s : State) (ks : Keystore) (auth : Option (List UInt8)) (d : List UInt8)
    (h1 : d.length ≠ 32) (h2 : 2 * d.length ≤ maxBodySize) : (handle c s (.sign (hexEncode d) auth ks)).2 = .panic := by
  unfold handle signHashed
  dsimp only
  rw [if_neg (by rw [Calldata.hexEncode_length]; omega), Calldata.hexDecode_encode]
  dsimp only
  rw [if_pos h1]

/-- **C103, reading.** The two endpoints that need no token change nothing, sign nothing and send nothing. -/
theorem C103_reading_changes_nothing (c : Crypto) (s : State) (body : List UInt8) (busy : Bool) (a : Except EthErr (List UInt8)) :
    (handle c s (.view body busy a)).1 = s ∧ (handle c s (.query body busy a)).1 = s :=
  ⟨view_state s body busy a, query_state s body busy a⟩

/-! ## C104 -/

theorem accepted_nil : acceptedNonces [] = [] := rfl

theorem submissions_append (a b : List Obs) : submissions (a ++ b) = submissions a ++ submissions b := by
  simp [submissions]

theorem accepted_append (a b : List Obs) : acceptedNonces (a ++ b) = acceptedNonces a ++ acceptedNonces b := by
  simp [acceptedNonces, submissions_append]

/-- No restart of the node. -/
def Op.NoRestart : Op → Prop
  | .restart _ => False
  | _ => True

/-- Ethereum calls a nonce too low only if it is: the calls before the raw transaction never say so, and a nonce refused as too low is
below the count told right afterwards. -/
def Op.Truthful : Op → Prop
  | .send _ _ _ _ a1 r _ => a1.count ≠ .error .lowNonce ∧ a1.gas ≠ .error .lowNonce ∧ a1.chain ≠ .error .lowNonce ∧
      a1.price ≠ .error .lowNonce ∧
      ∀ tx m, a1.send tx = .error .lowNonce → r = .ok m → tx.nonce < m ∧ m < pow64
  | _ => True

/-- Ethereum never calls a nonce too low. -/
def Op.NeverLow : Op → Prop
  | .send _ _ _ _ a1 _ _ => a1.count ≠ .error .lowNonce ∧ a1.gas ≠ .error .lowNonce ∧ a1.chain ≠ .error .lowNonce ∧
      a1.price ≠ .error .lowNonce ∧ ∀ tx, a1.send tx ≠ .error .lowNonce
  | _ => True

theorem handle_other (c : Crypto) (s : State) (op : Op) (hr : op.NoRestart)
    (h : ∀ body auth ks busy a1 r a2, op ≠ .send body auth ks busy a1 r a2) :
    (handle c s op).1.nonce = s.nonce ∧ submissions (handle c s op).1.log = submissions s.log := by
  cases op with
  | restart w => exact hr.elim
  | send => exact absurd rfl (h _ _ _ _ _ _ _)
  | view body busy call => simp only [handle, view_state]; exact ⟨trivial, trivial⟩
  | query body busy call => simp only [handle, query_state]; exact ⟨trivial, trivial⟩
  | sign body auth ks =>
    unfold handle signHashed
    dsimp only
    split
    · exact ⟨rfl, rfl⟩
    split
    · exact ⟨rfl, rfl⟩
    split
    · exact ⟨rfl, rfl⟩
    split
    · exact ⟨rfl, rfl⟩
    split
    · exact ⟨rfl, rfl⟩
    · exact ⟨rfl, rfl⟩
    split
    · exact ⟨rfl, rfl⟩
    · exact ⟨rfl, rfl⟩
    split
    · exact ⟨rfl, rfl⟩
    · refine ⟨rfl, ?_⟩
      rw [submissions_append]; simp [submissions]

/-- Cached nonce above every accepted one. -/
def Above (s : State) : Prop :=
  (acceptedNonces s.log).Pairwise (· < ·) ∧ ∀ n ∈ acceptedNonces s.log, ∃ k, s.nonce = some k ∧ n < k

theorem accepted_one (tx : Submission) (a : Except EthErr Hash) :
    acceptedNonces [.submitted tx a] = match a with | .ok _ => [tx.nonce] | .error _ => [] := by
  cases a <;> rfl

theorem request_above {k k' : Option Nat} {log new : List Obs} {t : EthTx} {secret : List UInt8} {a1 a2 : Answers} {r : Except EthErr Nat}
    {resp : Response} (hreq : Request k t secret a1 r a2 k' new resp)
    (hlow : a1.count ≠ .error .lowNonce ∧ a1.gas ≠ .error .lowNonce ∧ a1.chain ≠ .error .lowNonce ∧ a1.price ≠ .error .lowNonce ∧
      ∀ tx m, a1.send tx = .error .lowNonce → r = .ok m → tx.nonce < m ∧ m < pow64)
    (hp : (acceptedNonces log).Pairwise (· < ·)) (hk : ∀ n ∈ acceptedNonces log, ∃ j, k = some j ∧ n < j) :
    (acceptedNonces (log ++ new)).Pairwise (· < ·) ∧ ∀ n ∈ acceptedNonces (log ++ new), ∃ j, k' = some j ∧ n < j := by
  obtain ⟨l1, l2, l3, l4, l5⟩ := hlow
  have next : ∀ {n}, NextNonce k a1.count n → ∀ x ∈ acceptedNonces log, x < n := by
    intro n hn x hx
    obtain ⟨j, h1, h2⟩ := hk x hx
    rcases hn with hn | ⟨hn, -⟩
    · rw [h1] at hn; injection hn with hn; omega
    · rw [h1] at hn; exact absurd hn (by simp)
  have same : ∀ {k1}, (k1 = k ∨ ∃ n, NextNonce k a1.count n ∧ k1 = some n) → ∀ n ∈ acceptedNonces log, ∃ j, k1 = some j ∧ n < j := by
    rintro k1 (rfl | ⟨n, h1, rfl⟩) x hx
    · exact hk x hx
    · exact ⟨n, rfl, next h1 x hx⟩
  have noLow : ∀ {k1 new}, Attempt k t secret a1 k1 new (.ok (.error .lowNonce)) →
      ∃ n gas chain, NextNonce k a1.count n ∧ new = [.submitted ⟨secret, n, t.to, t.data, gas, chain⟩ (.error .lowNonce)] ∧
        a1.send ⟨secret, n, t.to, t.data, gas, chain⟩ = .error .lowNonce := by
    intro k1 new ha
    generalize ho : (Out.ok (Except.error EthErr.lowNonce) : Out (Except EthErr Hash)) = o at ha
    cases ha with
    | quiet _ _ _ hr =>
      subst ho
      rcases hr with hr | ⟨e, hr, hl⟩
      · exact absurd hr (by simp)
      · injection hr with hr; injection hr with hr
        rcases hl hr.symm with h | h | h | h
        · exact absurd h l1
        · exact absurd h l2
        · exact absurd h l3
        · exact absurd h l4
    | sent n gas chain hn =>
      injection ho with ho
      exact ⟨n, gas, chain, hn, by rw [← ho], ho.symm⟩
  have app1 : ∀ (n : Nat) (l : List Nat), l.Pairwise (· < ·) → (∀ x ∈ l, x < n) → (l ++ [n]).Pairwise (· < ·) := by
    intro n l h1 h2
    rw [List.pairwise_append]
    exact ⟨h1, List.pairwise_singleton _ _, fun a ha b hb => by rw [List.mem_singleton] at hb; subst hb; exact h2 a ha⟩
  have lowTail : ∀ {k1 new}, Attempt k t secret a1 k1 new (.ok (.error .lowNonce)) → ∀ m, r = .ok m →
      acceptedNonces new = [] ∧ m % pow64 = m ∧ ∀ x ∈ acceptedNonces log, x < m := by
    intro k1 new ha m hm
    obtain ⟨n, gas, chain, hn, h1, h2⟩ := noLow ha
    obtain ⟨h3, h4⟩ := l5 _ m h2 hm
    refine ⟨by rw [h1]; rfl, Nat.mod_eq_of_lt h4, fun x hx => ?_⟩
    have := next hn x hx
    dsimp only at h3
    omega
  cases hreq with
  | once _ _ o _ ha ho hresp =>
    cases ha with
    | quiet _ _ hk' hr => rw [List.append_nil]; exact ⟨hp, same hk'⟩
    | sent n gas chain hn =>
      rw [accepted_append, accepted_one]
      cases e : a1.send ⟨secret, n, t.to, t.data, gas, chain⟩ with
      | ok h => exact absurd (by rw [e]) (ho h)
      | error er =>
        dsimp only
        rw [List.append_nil]
        exact ⟨hp, fun x hx => ⟨n, rfl, next hn x hx⟩⟩
  | accepted k1 _ h ha =>
    generalize ho : (Out.ok (Except.ok h) : Out (Except EthErr Hash)) = o at ha
    cases ha with
    | quiet _ _ _ hr =>
      subst ho
      rcases hr with hr | ⟨e, hr, -⟩ <;> simp at hr
    | sent n gas chain hn =>
      injection ho with ho
      rw [accepted_append, accepted_one, ← ho]
      dsimp only
      refine ⟨app1 n _ hp (next hn), fun x hx => ⟨n + 1, rfl, ?_⟩⟩
      rcases List.mem_append.1 hx with hx | hx
      · have := next hn x hx; omega
      · rw [List.mem_singleton] at hx; omega
  | twice k1 _ new1 new2 m o _ ha hm ha2 ho hresp =>
    obtain ⟨t1, t2, t3⟩ := lowTail ha m hm
    rw [accepted_append, accepted_append, t1, List.nil_append]
    rw [t2] at ha2
    cases ha2 with
    | quiet _ _ hk' hr =>
      rw [accepted_nil, List.append_nil]
      refine ⟨hp, fun x hx => ?_⟩
      rcases hk' with rfl | ⟨n, hn, rfl⟩
      · exact ⟨m, rfl, t3 x hx⟩
      · rcases hn with hn | ⟨hn, -⟩
        · injection hn with hn; exact ⟨n, rfl, hn ▸ t3 x hx⟩
        · exact absurd hn (by simp)
    | sent n gas chain hn =>
      have hmn : m = n := by
        rcases hn with hn | ⟨hn, -⟩
        · injection hn
        · exact absurd hn (by simp)
      rw [accepted_one]
      cases e : a2.send ⟨secret, n, t.to, t.data, gas, chain⟩ with
      | ok h => exact absurd (by rw [e]) (ho h)
      | error er =>
        dsimp only
        rw [List.append_nil]
        exact ⟨hp, fun x hx => ⟨n, rfl, hmn ▸ t3 x hx⟩⟩
  | acceptedTwice k1 k2 new1 new2 m h ha hm ha2 =>
    obtain ⟨t1, t2, t3⟩ := lowTail ha m hm
    rw [accepted_append, accepted_append, t1, List.nil_append]
    rw [t2] at ha2
    generalize ho : (Out.ok (Except.ok h) : Out (Except EthErr Hash)) = o at ha2
    cases ha2 with
    | quiet _ _ _ hr =>
      subst ho
      rcases hr with hr | ⟨e, hr, -⟩ <;> simp at hr
    | sent n gas chain hn =>
      have hmn : m = n := by
        rcases hn with hn | ⟨hn, -⟩
        · injection hn
        · exact absurd hn (by simp)
      injection ho with ho
      rw [accepted_one, ← ho]
      dsimp only
      subst hmn
      refine ⟨app1 m _ hp t3, fun x hx => ⟨m + 1, rfl, ?_⟩⟩
      rcases List.mem_append.1 hx with hx | hx
      · have := t3 x hx; omega
      · rw [List.mem_singleton] at hx; omega

theorem handle_above (c : Crypto) (s : State) (op : Op) (hr : op.NoRestart) (ht : op.Truthful) (h : Above s) : Above (handle c s op).1 := by
  by_cases hs : ∃ body auth ks busy a1 r a2, op = .send body auth ks busy a1 r a2
  · obtain ⟨body, auth, ks, busy, a1, r, a2, rfl⟩ := hs
    have hh : handle c s (.send body auth ks busy a1 r a2) = send c s body auth ks busy a1 r a2 := rfl
    rw [hh]
    rcases send_request c s body auth ks busy a1 r a2 with ⟨h1, -⟩ | ⟨t, secret, k', new, resp, -, h1, hreq⟩
    · rw [h1]; exact h
    · rw [h1]; exact request_above hreq ht h.1 h.2
  · have hn : ∀ body auth ks busy a1 r a2, op ≠ .send body auth ks busy a1 r a2 :=
      fun body auth ks busy a1 r a2 he => hs ⟨body, auth, ks, busy, a1, r, a2, he⟩
    obtain ⟨h1, h2⟩ := handle_other c s op hr hn
    unfold Above at h ⊢
    unfold acceptedNonces at h ⊢
    rw [h1, h2]; exact h

/-- **C104 (partial).** As long as the node is not restarted and Ethereum calls a nonce too low only when it is, the transactions
Ethereum accepts from the node carry strictly increasing nonces: none replaces an earlier one. -/
theorem C104_accepted_nonces_increase_partial (c : Crypto) (s : State) (hs : s.log = []) (ops : List Op)
    (hr : ∀ op ∈ ops, op.NoRestart) (ht : ∀ op ∈ ops, op.Truthful) :
    (acceptedNonces (run c s ops).log).Pairwise (· < ·) := by
  have : Above (run c s ops) := by
    induction ops using List.reverseRecOn with
    | nil => unfold run Above; rw [List.foldl_nil, hs]; simp [accepted_nil]
    | append_singleton ops op ih =>
      rw [run_snoc]
      exact handle_above c _ op (hr op (by simp)) (ht op (by simp)) (ih (fun o ho => hr o (by simp [ho])) (fun o ho => ht o (by simp [ho])))
  exact this.1

/-- What one request does when Ethereum never calls a nonce too low. -/
theorem request_neverLow {k k' : Option Nat} {new : List Obs} {t : EthTx} {secret : List UInt8} {a1 a2 : Answers} {r : Except EthErr Nat}
    {resp : Response} (hreq : Request k t secret a1 r a2 k' new resp)
    (hlow : a1.count ≠ .error .lowNonce ∧ a1.gas ≠ .error .lowNonce ∧ a1.chain ≠ .error .lowNonce ∧ a1.price ≠ .error .lowNonce ∧
      ∀ tx, a1.send tx ≠ .error .lowNonce) :
    (acceptedNonces new = [] ∧ (∀ p ∈ submissions new, NextNonce k a1.count p.1.nonce) ∧
      (k' = k ∨ ∃ n, NextNonce k a1.count n ∧ k' = some n)) ∨
    (∃ n, NextNonce k a1.count n ∧ acceptedNonces new = [n] ∧ (∀ p ∈ submissions new, p.1.nonce = n) ∧ k' = some (n + 1)) := by
  obtain ⟨l1, l2, l3, l4, l5⟩ := hlow
  have noLow : ∀ {k1 new}, ¬ Attempt k t secret a1 k1 new (.ok (.error .lowNonce)) := by
    intro k1 new ha
    generalize ho : (Out.ok (Except.error EthErr.lowNonce) : Out (Except EthErr Hash)) = o at ha
    cases ha with
    | quiet _ _ _ hr =>
      subst ho
      rcases hr with hr | ⟨e, hr, hl⟩
      · exact absurd hr (by simp)
      · injection hr with hr; injection hr with hr
        rcases hl hr.symm with h | h | h | h
        · exact l1 h
        · exact l2 h
        · exact l3 h
        · exact l4 h
    | sent n gas chain hn =>
      injection ho with ho
      exact l5 _ ho.symm
  cases hreq with
  | once _ _ o _ ha ho hresp =>
    left
    cases ha with
    | quiet _ _ hk' hr => exact ⟨rfl, by simp [submissions], hk'⟩
    | sent n gas chain hn =>
      rw [accepted_one]
      cases e : a1.send ⟨secret, n, t.to, t.data, gas, chain⟩ with
      | ok h => exact absurd (by rw [e]) (ho h)
      | error er => exact ⟨rfl, by simp [submissions]; exact hn, .inr ⟨n, hn, rfl⟩⟩
  | accepted k1 _ h ha =>
    right
    generalize ho : (Out.ok (Except.ok h) : Out (Except EthErr Hash)) = o at ha
    cases ha with
    | quiet _ _ _ hr =>
      subst ho
      rcases hr with hr | ⟨e, hr, -⟩ <;> simp at hr
    | sent n gas chain hn =>
      injection ho with ho
      exact ⟨n, hn, by rw [accepted_one, ← ho], by simp [submissions], rfl⟩
  | twice k1 _ new1 new2 m o _ ha hm ha2 ho hresp => exact absurd ha noLow
  | acceptedTwice k1 k2 new1 new2 m h ha hm ha2 => exact absurd ha noLow

/-- A count Ethereum told during the history. -/
def Told (ops : List Op) (k0 : Nat) : Prop :=
  ∃ body auth ks busy a1 r a2 m, .send body auth ks busy a1 r a2 ∈ ops ∧ a1.count = .ok m ∧ k0 = m % pow64

/-- **C104, no gaps (partial).** As long as the node is not restarted and Ethereum never calls a nonce too low, the accepted nonces are
consecutive and start at the transaction count Ethereum told. -/
theorem C104_accepted_nonces_have_no_gaps_partial (c : Crypto) (s : State) (hs : s.log = []) (hn : s.nonce = none) (ops : List Op)
    (hr : ∀ op ∈ ops, op.NoRestart) (ht : ∀ op ∈ ops, op.NeverLow) :
    acceptedNonces (run c s ops).log = [] ∨
      ∃ k0, Told ops k0 ∧ acceptedNonces (run c s ops).log = List.range' k0 (acceptedNonces (run c s ops).log).length := by
  have inv : (acceptedNonces (run c s ops).log = [] ∧ ∀ k, (run c s ops).nonce = some k → Told ops k) ∨
      ∃ k0 len, Told ops k0 ∧ acceptedNonces (run c s ops).log = List.range' k0 len ∧ (run c s ops).nonce = some (k0 + len) := by
    induction ops using List.reverseRecOn with
    | nil =>
      left
      have : run c s [] = s := rfl
      rw [this, hs, hn]
      exact ⟨rfl, by simp⟩
    | append_singleton ops op ih =>
      rw [run_snoc]
      have ih := ih (fun o ho => hr o (by simp [ho])) (fun o ho => ht o (by simp [ho]))
      have mono : ∀ k, Told ops k → Told (ops ++ [op]) k := by
        rintro k ⟨body, auth, ks, busy, a1, r, a2, m, h1, h2⟩
        exact ⟨body, auth, ks, busy, a1, r, a2, m, by simp [h1], h2⟩
      have keep : ∀ s' : State, s'.nonce = (run c s ops).nonce → acceptedNonces s'.log = acceptedNonces (run c s ops).log →
          ((acceptedNonces s'.log = [] ∧ ∀ k, s'.nonce = some k → Told (ops ++ [op]) k) ∨
            ∃ k0 len, Told (ops ++ [op]) k0 ∧ acceptedNonces s'.log = List.range' k0 len ∧ s'.nonce = some (k0 + len)) := by
        intro s' h1 h2
        rw [h1, h2]
        rcases ih with ⟨h3, h4⟩ | ⟨k0, len, h3, h4, h5⟩
        · exact .inl ⟨h3, fun k hk => mono k (h4 k hk)⟩
        · exact .inr ⟨k0, len, mono _ h3, h4, h5⟩
      by_cases hsend : ∃ body auth ks busy a1 r a2, op = .send body auth ks busy a1 r a2
      · obtain ⟨body, auth, ks, busy, a1, r, a2, rfl⟩ := hsend
        have hh : handle c (run c s ops) (.send body auth ks busy a1 r a2) = send c (run c s ops) body auth ks busy a1 r a2 := rfl
        rw [hh]
        rcases send_request c (run c s ops) body auth ks busy a1 r a2 with ⟨h1, -⟩ | ⟨t, secret, k', new, resp, -, h1, hreq⟩
        · rw [h1]; exact keep _ rfl rfl
        · rw [h1]
          dsimp only
          have told : ∀ n, (run c s ops).nonce = none → NextNonce (run c s ops).nonce a1.count n →
              Told (ops ++ [.send body auth ks busy a1 r a2]) n := by
            intro n hn hx
            rcases hx with hx | ⟨-, m, h2, h3⟩
            · rw [hn] at hx; exact absurd hx (by simp)
            · exact ⟨body, auth, ks, busy, a1, r, a2, m, by simp, h2, h3⟩
          have hnl := ht (.send body auth ks busy a1 r a2) (by simp)
          rcases request_neverLow hreq hnl with ⟨h2, -, h4⟩ | ⟨n, h2, h3, -, h5⟩
          · rw [accepted_append, h2, List.append_nil]
            rcases ih with ⟨h6, h7⟩ | ⟨k0, len, h6, h7, h8⟩
            · left
              refine ⟨h6, fun k hk => ?_⟩
              cases e : (run c s ops).nonce with
              | some j =>
                have : k = j := by
                  rcases h4 with h4 | ⟨n, h4, h9⟩
                  · rw [h4, e] at hk; injection hk with hk; exact hk.symm
                  · rcases h4 with h4 | ⟨h4, -⟩
                    · rw [e] at h4; injection h4 with h4; rw [h9] at hk; injection hk with hk; omega
                    · rw [e] at h4; exact absurd h4 (by simp)
                rw [this]; exact mono _ (h7 j e)
              | none =>
                rcases h4 with h4 | ⟨n, h4, h9⟩
                · rw [h4, e] at hk; exact absurd hk (by simp)
                · rw [h9] at hk; injection hk with hk; subst hk; exact told n e h4
            · right
              refine ⟨k0, len, mono _ h6, h7, ?_⟩
              rcases h4 with h4 | ⟨n, h4, h9⟩
              · rw [h4, h8]
              · rcases h4 with h4 | ⟨h4, -⟩
                · rw [h9, ← h4, h8]
                · rw [h8] at h4; exact absurd h4 (by simp)
          · right
            rw [accepted_append, h3]
            rcases ih with ⟨h6, h7⟩ | ⟨k0, len, h6, h7, h8⟩
            · refine ⟨n, 1, ?_, by rw [h6]; rfl, h5⟩
              cases e : (run c s ops).nonce with
              | some j =>
                rcases h2 with h2 | ⟨h2, -⟩
                · rw [e] at h2; injection h2 with h2; subst h2; exact mono _ (h7 _ e)
                · rw [e] at h2; exact absurd h2 (by simp)
              | none => exact told n e h2
            · have hn' : n = k0 + len := by
                rcases h2 with h2 | ⟨h2, -⟩
                · rw [h8] at h2; injection h2 with h2; omega
                · rw [h8] at h2; exact absurd h2 (by simp)
              refine ⟨k0, len + 1, mono _ h6, ?_, by rw [h5, hn', Nat.add_assoc]⟩
              rw [h7, hn', List.range'_concat]; simp
      · have hne : ∀ body auth ks busy a1 r a2, op ≠ .send body auth ks busy a1 r a2 :=
          fun body auth ks busy a1 r a2 he => hsend ⟨body, auth, ks, busy, a1, r, a2, he⟩
        obtain ⟨h1, h2⟩ := handle_other c (run c s ops) op (hr op (by simp)) hne
        exact keep _ h1 (by unfold acceptedNonces; rw [h2])
  rcases inv with ⟨h, -⟩ | ⟨k0, len, h1, h2, -⟩
  · exact .inl h
  · right
    refine ⟨k0, h1, ?_⟩
    rw [h2, List.length_range']

/-- **C104, what is missing (finding N3).** Once a nonce is cached it is never lowered unless Ethereum calls one too low: after a
transaction Ethereum dropped, or when the node's Ethereum key is replaced by one with a smaller count, every later transaction carries a
nonce above Ethereum's count, which Ethereum keeps for later and does not execute — whatever is requested, until the node is restarted. -/
theorem C104_a_dropped_transaction_blocks_later_ones (c : Crypto) (s : State) (k : Nat) (hk : s.nonce = some k) (ops : List Op)
    (hr : ∀ op ∈ ops, op.NoRestart) (ht : ∀ op ∈ ops, op.NeverLow) :
    ∃ new, submissions (run c s ops).log = submissions s.log ++ new ∧ ∀ p ∈ new, k ≤ p.1.nonce := by
  have inv : (∃ j, (run c s ops).nonce = some j ∧ k ≤ j) ∧
      ∃ new, submissions (run c s ops).log = submissions s.log ++ new ∧ ∀ p ∈ new, k ≤ p.1.nonce := by
    induction ops using List.reverseRecOn with
    | nil => exact ⟨⟨k, hk, le_refl _⟩, [], by simp [run], by simp⟩
    | append_singleton ops op ih =>
      rw [run_snoc]
      obtain ⟨⟨j, hj, hle⟩, new, hnew, hall⟩ := ih (fun o ho => hr o (by simp [ho])) (fun o ho => ht o (by simp [ho]))
      by_cases hsend : ∃ body auth ks busy a1 r a2, op = .send body auth ks busy a1 r a2
      · obtain ⟨body, auth, ks, busy, a1, r, a2, rfl⟩ := hsend
        have hh : handle c (run c s ops) (.send body auth ks busy a1 r a2) = send c (run c s ops) body auth ks busy a1 r a2 := rfl
        rw [hh]
        rcases send_request c (run c s ops) body auth ks busy a1 r a2 with ⟨h1, -⟩ | ⟨t, secret, k', new', resp, -, h1, hreq⟩
        · rw [h1]; exact ⟨⟨j, hj, hle⟩, new, hnew, hall⟩
        · rw [h1]
          dsimp only
          have hnl := ht (.send body auth ks busy a1 r a2) (by simp)
          have nx : ∀ n, NextNonce (run c s ops).nonce a1.count n → n = j := by
            intro n hn
            rcases hn with hn | ⟨hn, -⟩
            · rw [hj] at hn; injection hn with hn; exact hn.symm
            · rw [hj] at hn; exact absurd hn (by simp)
          rcases request_neverLow hreq hnl with ⟨-, h3, h4⟩ | ⟨n, h2, -, h4, h5⟩
          · refine ⟨?_, new ++ submissions new', by rw [submissions_append, hnew, List.append_assoc], fun p hp => ?_⟩
            · rcases h4 with h4 | ⟨n, h4, h6⟩
              · exact ⟨j, by rw [h4, hj], hle⟩
              · exact ⟨n, h6, by rw [nx n h4]; exact hle⟩
            · rcases List.mem_append.1 hp with hp | hp
              · exact hall p hp
              · rw [nx _ (h3 p hp)]; exact hle
          · refine ⟨⟨n + 1, h5, by rw [nx n h2]; omega⟩, new ++ submissions new', by rw [submissions_append, hnew, List.append_assoc],
              fun p hp => ?_⟩
            rcases List.mem_append.1 hp with hp | hp
            · exact hall p hp
            · rw [h4 p hp, nx n h2]; exact hle
      · have hne : ∀ body auth ks busy a1 r a2, op ≠ .send body auth ks busy a1 r a2 :=
          fun body auth ks busy a1 r a2 he => hsend ⟨body, auth, ks, busy, a1, r, a2, he⟩
        obtain ⟨h1, h2⟩ := handle_other c (run c s ops) op (hr op (by simp)) hne
        rw [h1, h2]
        exact ⟨⟨j, hj, hle⟩, new, hnew, hall⟩
  exact inv.2

/-! ### A concrete service -/

/-- Signature scheme of the example: key 7's signature of a message repeats the message's first byte 64 times. -/
def exCrypto : Crypto where
  srVerify k m s := k == 7 && s == List.replicate 64 (m.headD 0)
  validSecret s := s.length == 32
  ecdsaSign _ d := Vector.replicate 65 (d.headD 0)

def exPub : List UInt8 := List.replicate 20 0xaa

def exKey : List UInt8 := List.replicate 32 5

/-- One Ethereum key, and a file that is not one. -/
def exKs : Keystore where
  files := [(ascii "readme", none), (hexEncode (ascii "ethk" ++ exPub), some (hexEncode exKey))]
  avnKeys := [3, 7]

theorem exKs_oneKey : OneKey exKs.files exPub exKey where
  split := by
    refine ⟨[(ascii "readme", none)], hexEncode exKey, [], rfl, Calldata.hexDecode_encode _, ?_, by simp⟩
    intro f hf p hp
    rw [List.mem_singleton] at hf; subst hf
    have : hexDecode (ascii "readme") = none := by decide
    have h2 := hp.2
    dsimp only at h2
    rw [this] at h2; simp at h2
  pub_length := rfl
  key_length := by decide

def exTx : EthTx := ⟨Vector.replicate 32 9, Vector.replicate 20 4, [1, 2, 3], none⟩

/-- An Ethereum node whose count for the account is 7 and which accepts nonces of 7 and more. -/
def exAnswers : Answers where
  count := .ok 7
  gas := .ok 21000
  chain := .ok 1
  price := .ok 1
  send tx := if tx.nonce < 7 then .error .lowNonce else .ok (Vector.replicate 32 (UInt8.ofNat tx.nonce))

def exStart : State := ⟨true, none, []⟩

def exSend : Op := .send exTx.encode (some (hexEncode (List.replicate 64 9))) exKs false exAnswers (.ok 7) exAnswers

def exSign : Op := .sign (hexEncode (List.replicate 32 2)) (some (hexEncode (List.replicate 64 2))) exKs

/-- **C104, what is missing (finding N2).** A restart forgets the cached nonce, and Ethereum's count does not include transactions that
are still waiting: a transaction requested right after a restart takes the nonce of the one sent right before, and may replace it. Here
Ethereum is truthful throughout. -/
theorem C104_restart_reuses_a_nonce :
    ∃ (c : Crypto) (s : State) (ops : List Op), s.log = [] ∧ s.nonce = none ∧ (∀ op ∈ ops, op.Truthful) ∧
      acceptedNonces (run c s ops).log = [7, 7] := by
  refine ⟨exCrypto, exStart, [exSend, .restart true, exSend], rfl, rfl, ?_, by decide +kernel⟩
  have ht : exSend.Truthful := by
    refine ⟨by simp [exAnswers], by simp [exAnswers], by simp [exAnswers], by simp [exAnswers], ?_⟩
    intro tx m h hm
    injection hm with hm
    subst hm
    simp only [exAnswers] at h
    by_cases h7 : tx.nonce < 7
    · exact ⟨h7, by decide⟩
    · rw [if_neg h7] at h; exact absurd h (by simp)
  intro op hop
  simp only [List.mem_cons, List.not_mem_nil, or_false] at hop
  rcases hop with rfl | rfl | rfl
  · exact ht
  · trivial
  · exact ht

/-- The hypotheses of the C102 theorems are met: both requests of the example are served, two transactions get nonces 7 and 8. -/
example : acceptedNonces (run exCrypto exStart [exSend, exSign, exSend]).log = [7, 8] := by decide +kernel

example : (handle exCrypto exStart exSign).2 = .ok (hexEncode (List.replicate 65 2)) := by decide +kernel

example : (handle exCrypto exStart exSend).2 = .ok (hexEncode (List.replicate 32 7)) := by decide +kernel

/-- A cached nonce that has become too low is corrected within the same request. -/
example : (run exCrypto ⟨true, some 3, []⟩ [exSend]).nonce = some 8 := by decide +kernel

example : (run exCrypto ⟨true, some 3, []⟩ [exSend]).log.length = 2 := by decide +kernel

/-- Without a token, or with a token for something else, nothing is served. -/
example : (handle exCrypto exStart (.sign (hexEncode (List.replicate 32 2)) none exKs)).2 = .err := by decide +kernel

example : (handle exCrypto exStart (.sign (hexEncode (List.replicate 32 2)) (some (hexEncode (List.replicate 64 9))) exKs)).2 = .err := by
  decide +kernel

example : (handle exCrypto exStart (.sign (hexEncode [1]) none exKs)).2 = .panic := by decide +kernel

example : (handle exCrypto exStart (.sign (hexEncode (List.replicate 32 2)) (some (hexEncode (List.replicate 64 2))) exKs)).2 =
    .ok (hexEncode (exCrypto.ecdsaSign (exKey.take 32) (List.replicate 32 2)).toList) :=
  C102_own_signing_requests_are_served exCrypto exStart exKs 7 (List.replicate 32 2) (List.replicate 64 2) exPub exKey rfl rfl (by decide)
    (by decide +kernel) exKs_oneKey (by decide +kernel)

end Verif.Service
