import Verif.Model.ProxyCalls
import Verif.Lemmas.Encoding
import Verif.Props.Encoding

/-!
# C72: an authorisation is good for one operation only
-/

namespace Verif.ProxyCalls
open Verif.TokenManager (wrap_head wrap_inj)

/-! ## Specification -/

/-- What the signer agreed to: the call with its arguments and the relayer, without the signer and the signature. -/
def blank (p : Proof) : Proof :=
  { signer := Vector.replicate 32 0, relayer := p.relayer, signature := .sr25519 (Vector.replicate 64 0) }

/-- The call with signer and signature blanked. -/
def Call.agreed : Call → Call
  | .addEthereumLog p e h => .addEthereumLog (blank p) e h
  | .signedTransfer p f d t a => .signedTransfer (blank p) f d t a
  | .signedLower p f t a r => .signedLower (blank p) f t a r
  | .mintSingleNft p x r t => .mintSingleNft (blank p) x r t
  | .listNft p i m => .listNft (blank p) i m
  | .transferFiatNft p i d => .transferFiatNft (blank p) i d
  | .cancelListNft p i => .cancelListNft (blank p) i
  | .createBatch p s r t => .createBatch (blank p) s r t
  | .mintBatchNft p b i o x => .mintBatchNft (blank p) b i o x
  | .listBatch p b m => .listBatch (blank p) b m
  | .endBatchSale p b => .endBatchSale (blank p) b
  | .candidateBondExtra p a => .candidateBondExtra (blank p) a
  | .executeCandidateUnbond p c => .executeCandidateUnbond (blank p) c
  | .scheduleCandidateUnbond p a => .scheduleCandidateUnbond (blank p) a
  | .nominate p t a => .nominate (blank p) t a
  | .scheduleLeaveNominators p => .scheduleLeaveNominators (blank p)
  | .executeLeaveNominators p n => .executeLeaveNominators (blank p) n
  | .scheduleRevokeNomination p c => .scheduleRevokeNomination (blank p) c
  | .bondExtra p a => .bondExtra (blank p) a
  | .scheduleNominatorUnbond p a => .scheduleNominatorUnbond (blank p) a
  | .executeNominationRequest p n => .executeNominationRequest (blank p) n
  | .registerChainHandler p h n => .registerChainHandler (blank p) h n
  | .updateChainHandler p o n => .updateChainHandler (blank p) o n
  | .submitCheckpoint p h k o => .submitCheckpoint (blank p) h k o
  | .other n => .other n

/-- The nonce that protects a call against replay, if it has one: per signer, per NFT, or per anchored chain. -/
def nonceUsed (ns : Nonces) : Call → Option U64
  | .addEthereumLog p .. => some (ns.ethEvents p.signer)
  | .signedTransfer p .. | .signedLower p .. => some (ns.token p.signer)
  | .listNft _ i _ | .transferFiatNft _ i _ | .cancelListNft _ i => ns.nft i
  | .createBatch p .. | .listBatch p .. | .endBatchSale p .. => some (ns.batch p.signer)
  | .candidateBondExtra p .. | .executeCandidateUnbond p .. | .scheduleCandidateUnbond p .. | .nominate p ..
  | .scheduleLeaveNominators p | .executeLeaveNominators p .. | .scheduleRevokeNomination p .. | .bondExtra p ..
  | .scheduleNominatorUnbond p .. | .executeNominationRequest p .. => some (ns.staking p.signer)
  | .updateChainHandler _ o _ => (ns.chainOf o).map ns.chain
  | .submitCheckpoint _ h _ _ => (ns.chainOf h).map ns.chain
  | .mintSingleNft .. | .mintBatchNft .. | .registerChainHandler .. | .other _ => none

/-- The anchored chain a call is about. -/
def chainUsed (ns : Nonces) : Call → Option U32
  | .updateChainHandler _ o _ => ns.chainOf o
  | .submitCheckpoint _ h _ _ => ns.chainOf h
  | _ => none

/-- The messages a signature over a payload may be made of: the payload, or the payload wrapped by a browser extension. -/
def Signable (m payload : List UInt8) : Prop := m = payload ∨ m = wrapBytes payload

/-! ## Encodings are uniquely decodable -/

/-- The type of a field. -/
def Field.kind : Field → Nat × Nat
  | .fixed n _ => (0, n)
  | .byte _ => (1, 0)
  | .u32 _ => (2, 0)
  | .u64 _ => (3, 0)
  | .u128 _ => (4, 0)
  | .u256 _ => (5, 0)
  | .bytes _ => (6, 0)
  | .royalties _ => (7, 0)
  | .targets _ => (8, 0)

theorem fin_split {k m : Nat} (hm : m = 256 ^ k) {a b : Fin m} {x y : List UInt8}
    (h : leBytes k a.val ++ x = leBytes k b.val ++ y) : a = b ∧ x = y := by
  obtain ⟨h1, h2⟩ := le_split (hm ▸ a.isLt) (hm ▸ b.isLt) h
  exact ⟨Fin.ext h1, h2⟩

theorem encRoyalty_split {a b : Royalty} {x y : List UInt8} (h : encRoyalty a ++ x = encRoyalty b ++ y) : a = b ∧ x = y := by
  unfold encRoyalty at h
  rw [List.append_assoc, List.append_assoc] at h
  obtain ⟨h1, h2⟩ := vec_split h
  obtain ⟨h3, h4⟩ := fin_split (by decide) h2
  cases a; cases b; simp_all

theorem bytes_split {a b : SVec UInt8} {x y : List UInt8} (h : scaleBytes a.val ++ x = scaleBytes b.val ++ y) :
    a = b ∧ x = y := by
  obtain ⟨h1, h2⟩ := scaleBytes_split a.property b.property h
  exact ⟨Subtype.ext h1, h2⟩

theorem svec_split {α : Type} {enc : α → List UInt8} (henc : ∀ (x y : α) r t, enc x ++ r = enc y ++ t → x = y ∧ r = t)
    {a b : SVec α} {x y : List UInt8} (h : scaleVec enc a.val ++ x = scaleVec enc b.val ++ y) : a = b ∧ x = y := by
  obtain ⟨h1, h2⟩ := scaleVec_split (fun u _ v _ => henc u v) a.property b.property h
  exact ⟨Subtype.ext h1, h2⟩

theorem encMulti_split {a b : MultiAddr} {x y : List UInt8} (h : encMulti a ++ x = encMulti b ++ y) : a = b ∧ x = y := by
  cases a <;> cases b <;> simp only [encMulti, List.cons_append, List.cons.injEq, List.nil_append] at h <;>
    first
    | exact absurd h.1 (by decide)
    | (obtain ⟨h1, h2⟩ := vec_split h.2; exact ⟨by rw [h1], h2⟩)
    | (obtain ⟨h1, h2⟩ := bytes_split h.2; exact ⟨by rw [h1], h2⟩)
    | exact ⟨rfl, h.2⟩

theorem Field.split {a b : Field} (hk : a.kind = b.kind) {x y : List UInt8} (h : a.enc ++ x = b.enc ++ y) :
    a = b ∧ x = y := by
  cases a <;> cases b <;> simp only [Field.kind, Prod.mk.injEq, and_true] at hk <;>
    first
    | exact absurd hk (by decide)
    | exact absurd hk.1 (by decide)
    | skip
  · obtain ⟨-, rfl⟩ := hk
    obtain ⟨h1, h2⟩ := vec_split h
    exact ⟨by rw [h1], h2⟩
  · simp only [Field.enc, List.cons_append, List.nil_append, List.cons.injEq] at h
    exact ⟨by rw [h.1], h.2⟩
  · obtain ⟨h1, h2⟩ := fin_split (by decide) h; exact ⟨by rw [h1], h2⟩
  · obtain ⟨h1, h2⟩ := fin_split (by decide) h; exact ⟨by rw [h1], h2⟩
  · obtain ⟨h1, h2⟩ := fin_split (by decide) h; exact ⟨by rw [h1], h2⟩
  · obtain ⟨h1, h2⟩ := fin_split (by decide) h; exact ⟨by rw [h1], h2⟩
  · obtain ⟨h1, h2⟩ := bytes_split h; exact ⟨by rw [h1], h2⟩
  · obtain ⟨h1, h2⟩ := svec_split (fun _ _ _ _ => encRoyalty_split) h; exact ⟨by rw [h1], h2⟩
  · obtain ⟨h1, h2⟩ := svec_split (fun _ _ _ _ => encMulti_split) h; exact ⟨by rw [h1], h2⟩

theorem encFields_inj : ∀ (fs gs : List Field), fs.map Field.kind = gs.map Field.kind → encFields fs = encFields gs → fs = gs
  | [], [], _, _ => rfl
  | [], _ :: _, hk, _ => by simp at hk
  | _ :: _, [], hk, _ => by simp at hk
  | f :: fs, g :: gs, hk, h => by
    simp only [List.map_cons, List.cons.injEq] at hk
    simp only [encFields, List.map_cons, List.flatten_cons] at h
    obtain ⟨h1, h2⟩ := Field.split hk.1 h
    rw [h1, encFields_inj fs gs hk.2 h2]

/-- The number of the call. -/
def Call.tag : Call → Nat
  | .addEthereumLog .. => 0
  | .signedTransfer .. => 1
  | .signedLower .. => 2
  | .mintSingleNft .. => 3
  | .listNft .. => 4
  | .transferFiatNft .. => 5
  | .cancelListNft .. => 6
  | .createBatch .. => 7
  | .mintBatchNft .. => 8
  | .listBatch .. => 9
  | .endBatchSale .. => 10
  | .candidateBondExtra .. => 11
  | .executeCandidateUnbond .. => 12
  | .scheduleCandidateUnbond .. => 13
  | .nominate .. => 14
  | .scheduleLeaveNominators .. => 15
  | .executeLeaveNominators .. => 16
  | .scheduleRevokeNomination .. => 17
  | .bondExtra .. => 18
  | .scheduleNominatorUnbond .. => 19
  | .executeNominationRequest .. => 20
  | .registerChainHandler .. => 21
  | .updateChainHandler .. => 22
  | .submitCheckpoint .. => 23
  | .other .. => 24

/-- The contexts by number. -/
def contexts : List String :=
  ["authorization for add ethereum log operation",
   "authorization for transfer operation",
   "authorization for lower operation",
   "authorization for mint single nft operation",
   "authorization for list nft open for sale operation",
   "authorization for transfer fiat nft operation",
   "authorization for cancel list fiat nft for sale operation",
   "authorization for create batch operation",
   "authorization for mint batch nft operation",
   "authorization for list batch for sale operation",
   "authorization for end batch sale operation",
   "parachain authorization for candidate bond extra operation",
   "parachain authorization for executing candidate unbond operation",
   "parachain authorization for scheduling candidate unbond operation",
   "parachain authorization for nominate operation",
   "parachain authorization for scheduling leaving nominators operation",
   "parachain authorization for executing leave nominators operation",
   "parachain authorization for nominator remove bond operation",
   "parachain authorization for nominator bond extra operation",
   "parachain authorization for scheduling nominator unbond operation",
   "parachain authorization for executing nomination requests operation",
   "register_chain_handler",
   "update_chain_handler",
   "submit_checkpoint",
   ""]

/-- The field types by number. -/
def shapes : List (List (Nat × Nat)) :=
  [[(0,32), (1,0), (0,32), (3,0)],
   [(0,32), (0,32), (0,32), (0,20), (4,0), (3,0)],
   [(0,32), (0,32), (0,20), (4,0), (0,20), (3,0)],
   [(0,32), (6,0), (7,0), (0,20)],
   [(0,32), (5,0), (1,0), (3,0)],
   [(0,32), (5,0), (0,32), (3,0)],
   [(0,32), (5,0), (3,0)],
   [(0,32), (3,0), (7,0), (0,20), (3,0)],
   [(0,32), (5,0), (3,0), (6,0), (0,32)],
   [(0,32), (5,0), (1,0), (3,0)],
   [(0,32), (5,0), (3,0)],
   [(0,32), (4,0), (3,0)],
   [(0,32), (0,32), (3,0)],
   [(0,32), (4,0), (3,0)],
   [(0,32), (8,0), (4,0), (3,0)],
   [(0,32), (3,0)],
   [(0,32), (0,32), (3,0)],
   [(0,32), (0,32), (3,0)],
   [(0,32), (4,0), (3,0)],
   [(0,32), (4,0), (3,0)],
   [(0,32), (0,32), (3,0)],
   [(0,32), (0,32), (6,0)],
   [(0,32), (0,32), (0,32), (2,0), (3,0)],
   [(0,32), (0,32), (0,32), (2,0), (3,0), (3,0)],
   []]

theorem context_tag (c : Call) : contexts[c.tag]? = some (context c) := by cases c <;> rfl

theorem fields_shape (ns : Nonces) (c : Call) (fs : List Field) (h : fields ns c = some fs) :
    shapes[c.tag]? = some (fs.map Field.kind) := by
  cases c <;> simp only [fields, Option.some.injEq, Option.map_eq_some_iff, reduceCtorEq] at h <;>
    first
    | (subst h; rfl)
    | (obtain ⟨_, _, rfl⟩ := h; rfl)

theorem tag_lt (c : Call) : c.tag < 25 := by cases c <;> simp [Call.tag]

/-- The contexts are pairwise different. -/
theorem contexts_injective : ∀ i < 25, ∀ j < 25, (contexts[i]?.map ascii) = (contexts[j]?.map ascii) → i = j := by
  decide +kernel

/-- No context is 15 bytes long (a length prefix of 15 is the byte `<`), and all are short. -/
theorem contexts_short : ∀ s ∈ contexts, (ascii s).length < pow32 ∧ (scaleBytes (ascii s)).head? ≠ some 60 ∧
    scaleBytes (ascii s) ≠ [] := by
  decide +kernel

theorem context_mem (c : Call) : context c ∈ contexts := List.mem_of_getElem? (context_tag c)

theorem agreed_of_fields (ns ns' : Nonces) (c c' : Call) (fs : List Field) (ht : c.tag = c'.tag)
    (h : fields ns c = some fs) (h' : fields ns' c' = some fs) :
    c.agreed = c'.agreed ∧ nonceUsed ns c = nonceUsed ns' c' ∧ chainUsed ns c = chainUsed ns' c' := by
  cases c <;> cases c' <;> simp only [Call.tag, reduceCtorEq, Nat.reduceEqDiff] at ht <;>
    simp only [fields, Option.some.injEq, Option.map_eq_some_iff, reduceCtorEq] at h h' <;>
    first
    | (subst h
       simp only [List.cons.injEq, Field.fixed.injEq, Field.byte.injEq, Field.u32.injEq, Field.u64.injEq, Field.u128.injEq,
         Field.u256.injEq, Field.bytes.injEq, Field.royalties.injEq, Field.targets.injEq, heq_eq_eq, true_and, and_true] at h'
       simp only [Call.agreed, blank, nonceUsed, chainUsed]
       simp [h'])
    | (obtain ⟨n, hn, rfl⟩ := h
       obtain ⟨n', hn', h'⟩ := h'
       simp only [List.cons.injEq, Field.fixed.injEq, Field.byte.injEq, Field.u32.injEq, Field.u64.injEq, Field.u128.injEq,
         Field.u256.injEq, Field.bytes.injEq, Field.royalties.injEq, Field.targets.injEq, heq_eq_eq, true_and, and_true] at h'
       simp only [Call.agreed, blank, nonceUsed, chainUsed]
       simp_all
       try (have e := h'.2.2.2.1; subst e; first | exact h'.2.2.2.2.symm | exact h'.2.2.2.2.1.symm))

/-! ## The property -/

theorem payload_parts {ns : Nonces} {c : Call} {m : List UInt8} (h : payload ns c = some m) :
    ∃ fs, fields ns c = some fs ∧ m = scaleBytes (ascii (context c)) ++ encFields fs := by
  unfold payload at h
  obtain ⟨fs, h1, h2⟩ := Option.map_eq_some_iff.mp h
  exact ⟨fs, h1, h2.symm⟩

/-- C72: whatever the state of the chain, two proxied calls whose signed payloads are the same bytes are the same call with
the same arguments, the same relayer and the same nonce (and the same anchored chain). -/
theorem C72_payload_determines_call (ns ns' : Nonces) (c c' : Call) (m : List UInt8)
    (h : payload ns c = some m) (h' : payload ns' c' = some m) :
    c.agreed = c'.agreed ∧ nonceUsed ns c = nonceUsed ns' c' ∧ chainUsed ns c = chainUsed ns' c' := by
  obtain ⟨fs, h1, rfl⟩ := payload_parts h
  obtain ⟨gs, h2, h3⟩ := payload_parts h'
  obtain ⟨e1, e2⟩ := scaleBytes_split (contexts_short _ (context_mem c)).1 (contexts_short _ (context_mem c')).1 h3
  have ht : c.tag = c'.tag := contexts_injective _ (tag_lt c) _ (tag_lt c') (by
    rw [context_tag, context_tag, Option.map_some, Option.map_some, e1])
  have hk : fs.map Field.kind = gs.map Field.kind := by
    have a := fields_shape ns c fs h1
    have b := fields_shape ns' c' gs h2
    rw [ht, b] at a
    exact (Option.some.inj a).symm
  have := encFields_inj fs gs hk e2
  subst this
  exact agreed_of_fields ns ns' c c' fs ht h1 h2

theorem payload_head {ns : Nonces} {c : Call} {m : List UInt8} (h : payload ns c = some m) : m.head? ≠ some 60 := by
  obtain ⟨fs, h1, rfl⟩ := payload_parts h
  obtain ⟨-, h2, h3⟩ := contexts_short _ (context_mem c)
  rw [List.head?_append]
  cases hh : (scaleBytes (ascii (context c))).head? with
  | none => exact absurd (List.head?_eq_none_iff.mp hh) h3
  | some b => rw [hh] at h2; simpa using h2

/-- Plain and wrapped payloads cannot be confused. -/
theorem signable_unique {m p q : List UInt8} (hp : p.head? ≠ some 60) (hq : q.head? ≠ some 60)
    (h1 : Signable m p) (h2 : Signable m q) : p = q := by
  rcases h1 with rfl | rfl <;> rcases h2 with h | h
  · exact h
  · rw [h, wrap_head] at hp; exact absurd rfl hp
  · rw [← h, wrap_head] at hq; exact absurd rfl hq
  · exact wrap_inj h

/-- C72, on the bytes that are signed: a message that authorises two calls, plain or wrapped in `<Bytes>` tags, authorises
the same call with the same relayer and nonce. -/
theorem C72_message_determines_call (ns ns' : Nonces) (c c' : Call) (msg p p' : List UInt8)
    (h : payload ns c = some p) (h' : payload ns' c' = some p') (hm : Signable msg p) (hm' : Signable msg p') :
    c.agreed = c'.agreed ∧ nonceUsed ns c = nonceUsed ns' c' ∧ chainUsed ns c = chainUsed ns' c' := by
  have := signable_unique (payload_head h) (payload_head h') hm hm'
  subst this
  exact C72_payload_determines_call ns ns' c c' p h h'

theorem encSig_split {a b : Sig} {x y : List UInt8} (h : encSig a ++ x = encSig b ++ y) : a = b ∧ x = y := by
  cases a <;> cases b <;> simp only [encSig, List.cons_append, List.cons.injEq] at h <;>
    first
    | exact absurd h.1 (by decide)
    | (obtain ⟨h1, h2⟩ := vec_split h.2; exact ⟨by rw [h1], h2⟩)

/-- C72, payments: the bytes signed for a relayer fee determine the proof of the proxied call it pays for (signer, relayer
and signature), the recipient, the amount, the token and the payment nonce. -/
theorem C72_payment_payload_injective (p p' : Proof) (i i' : PaymentInfo) (n n' : U64)
    (h : paymentPayload p i n = paymentPayload p' i' n') :
    p = p' ∧ i.recipient = i'.recipient ∧ i.amount = i'.amount ∧ i.token = i'.token ∧ n = n' := by
  unfold paymentPayload encProof at h
  have h := List.append_cancel_left h
  simp only [List.append_assoc] at h
  obtain ⟨h1, h⟩ := vec_split h
  obtain ⟨h2, h⟩ := vec_split h
  obtain ⟨h3, h⟩ := encSig_split h
  obtain ⟨h4, h⟩ := vec_split h
  obtain ⟨h5, h⟩ := fin_split (by decide) h
  obtain ⟨h6, h⟩ := vec_split h
  have h : leBytes 8 n.val ++ [] = leBytes 8 n'.val ++ [] := by simpa using h
  obtain ⟨h7, -⟩ := fin_split (by decide) h
  refine ⟨?_, h4, h5, h6, h7⟩
  cases p; cases p'; simp_all

theorem paymentContext_facts : (ascii paymentContext).length < pow32 ∧ (scaleBytes (ascii paymentContext)).head? = some 124 ∧
    ∀ s ∈ contexts, ascii s ≠ ascii paymentContext := by decide +kernel

theorem paymentPayload_head (p : Proof) (i : PaymentInfo) (n : U64) : (paymentPayload p i n).head? = some 124 := by
  unfold paymentPayload
  rw [List.head?_append, paymentContext_facts.2.1]; rfl

/-- C72: a signed payment authorisation is never a valid authorisation of a call, nor the other way round. -/
theorem C72_payment_is_not_a_call (ns : Nonces) (c : Call) (p : Proof) (i : PaymentInfo) (n : U64) (msg m : List UInt8)
    (h : payload ns c = some m) (h1 : Signable msg m) : ¬ Signable msg (paymentPayload p i n) := by
  intro h2
  have := signable_unique (payload_head h) (by rw [paymentPayload_head]; decide) h1 h2
  subst this
  obtain ⟨fs, -, h3⟩ := payload_parts h
  unfold paymentPayload at h3
  obtain ⟨e, -⟩ := scaleBytes_split paymentContext_facts.1 (contexts_short _ (context_mem c)).1 h3
  exact paymentContext_facts.2.2 _ (context_mem c) e.symm

/-! ## Non-vacuity -/

/-- An account, a proof, and a state of the chain. -/
def exAcct (b : UInt8) : Acct := Vector.replicate 32 b
def exProof : Proof := ⟨exAcct 1, exAcct 2, .sr25519 (Vector.replicate 64 7)⟩
def exNonces : Nonces :=
  { token := fun _ => 3, ethEvents := fun _ => 0, staking := fun _ => 0, batch := fun _ => 5, nft := fun i => if i = 9 then some 4 else none,
    chainOf := fun a => if a = exAcct 1 then some 2 else none, chain := fun _ => 8 }

/-- Payloads exist; the two staking calls below have the same fields and differ in the context only. -/
example : (payload exNonces (.bondExtra exProof 100)).isSome ∧ (payload exNonces (.candidateBondExtra exProof 100)).isSome ∧
    payload exNonces (.bondExtra exProof 100) ≠ payload exNonces (.candidateBondExtra exProof 100) ∧
    fields exNonces (.listNft exProof 9 2) ≠ none ∧ payload exNonces (.listNft exProof 8 2) = none ∧
    (payload exNonces (.submitCheckpoint exProof (exAcct 1) (exAcct 3) 6)).isSome := by
  refine ⟨rfl, rfl, ?_, by simp [fields, exNonces], by simp [payload, fields, exNonces], by simp [payload, fields, exNonces]⟩
  intro h
  have := C72_payload_determines_call exNonces exNonces (.bondExtra exProof 100) (.candidateBondExtra exProof 100) _ rfl
    (h.symm.trans rfl)
  simp [Call.agreed] at this

end Verif.ProxyCalls
