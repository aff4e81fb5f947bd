import Verif.Props.EthBridgeSetup

/-!
# C151: the bridge honours requests, sender hashes, corroborations and the administrator
-/

namespace Verif.BridgeTx

variable {W : Type} (env : Env W)

/-- What the bridge takes as parameters: at most five, with type names of at most seven and values of at most 130 bytes. -/
def RoomFor (ps : List Param) : Prop := ps.length ≤ 5 ∧ ∀ p ∈ ps, p.1.length ≤ 7 ∧ p.2.length ≤ 130

/-- A request can be set up now: with the deadline and the id appended its parameters still fit and make a message of this bridge instance,
and there are authors (not a multiple of 256 of them) to send it. -/
def Sendable (s : State W) (name : List UInt8) (params : List Param) (id : Nat) : Prop :=
  let ps := params ++ [(ascii "uint256", ascii (toString (s.now + s.lifetime))), (ascii "uint32", ascii (toString id))]
  RoomFor ps ∧ (∃ h, env.fnHash name ps s.instanceId = some h) ∧ s.avn.validators.length % 256 ≠ 0

theorem paramsFit_iff (ps : List Param) : paramsFit ps = true ↔ RoomFor ps := by
  unfold paramsFit RoomFor
  simp only [Bool.and_eq_true, List.all_eq_true, decide_eq_true_eq]
  exact and_comm

theorem advancePrimary_iff (avn : Avn.State) : (∃ p, Avn.advancePrimary avn = .ok p) ↔ avn.validators.length % 256 ≠ 0 := by
  unfold Avn.advancePrimary
  constructor
  · rintro ⟨p, h⟩ h0
    split at h
    · cases h
    · dsimp only at h
      rw [if_pos h0] at h; cases h
  · intro h
    have h1 : avn.validators ≠ [] := by rintro h1; rw [h1] at h; exact h rfl
    rw [if_neg h1]
    dsimp only
    rw [if_neg h]
    have hl : (min (avn.primaryIndex + 1) 255) % (avn.validators.length % 256) < avn.validators.length :=
      Nat.lt_of_lt_of_le (Nat.mod_lt _ (Nat.pos_of_ne_zero h)) (Nat.mod_le _ _)
    rw [List.getElem?_eq_getElem hl]
    exact ⟨_, rfl⟩

theorem processNext_log (s : State W) : ∃ more, (processNext env s).log = s.log ++ more := by
  obtain ⟨-, ⟨new, h, -⟩, -⟩ := processQueue_full env s.queue { s with active := none } rfl
  exact ⟨new, h⟩

theorem setUpTx_isOk (s : State W) (r : SendReq) (n : Nat) :
    (∃ s', setUpTx env s r n = .ok s') ↔ Sendable env s r.name r.params r.txId := by
  unfold setUpTx Sendable extendParams
  dsimp only
  constructor
  · rintro ⟨s', h⟩
    by_cases hf : paramsFit (r.params ++ [(ascii "uint256", ascii (toString (s.now + s.lifetime))), (ascii "uint32", ascii (toString r.txId))]) = true
    · rw [if_pos hf] at h
      dsimp only at h
      cases h2 : env.fnHash r.name (r.params ++ [(ascii "uint256", ascii (toString (s.now + s.lifetime))), (ascii "uint32", ascii (toString r.txId))]) s.instanceId with
      | none => rw [h2] at h; cases h
      | some hh =>
        rw [h2] at h
        dsimp only at h
        cases h3 : Avn.advancePrimary s.avn with
        | error e => rw [h3] at h; cases h
        | ok p => exact ⟨(paramsFit_iff _).1 hf, ⟨hh, rfl⟩, (advancePrimary_iff _).1 ⟨p, h3⟩⟩
    · rw [if_neg hf] at h; cases h
  · rintro ⟨h1, ⟨hh, h2⟩, h3⟩
    rw [if_pos ((paramsFit_iff _).2 h1)]
    dsimp only
    rw [h2]
    obtain ⟨p, hp⟩ := (advancePrimary_iff _).2 h3
    rw [hp]
    exact ⟨_, rfl⟩

/-- **C151, send requests.** A pallet's request to call a function of the bridge contract is accepted, under the next transaction id, exactly
if the name is non-empty UTF-8 of at most 32 bytes, the parameters fit, the pallet's id has at most 50 bytes, and: some request is in work
and fewer than the limit wait, or none is in work and this one can be set up. -/
theorem C151_request_accepted_iff (s : State W) (name : List UInt8) (params : List Param) (caller : List UInt8) (id : Nat) :
    (publish env s name params caller).2 = .ok id ↔
      id = s.nextTxId ∧ env.validUtf8 name = true ∧ 0 < name.length ∧ name.length ≤ 32 ∧ RoomFor params ∧ caller.length ≤ 50 ∧
        ((s.active ≠ none ∧ s.queue.length < env.maxQueued) ∨ (s.active = none ∧ Sendable env s name params id)) := by
  unfold publish
  by_cases c1 : env.validUtf8 name = false
  · simp [c1]
  rw [if_neg c1]
  by_cases c2 : name = []
  · simp [c2]
  rw [if_neg c2]
  dsimp only
  by_cases c3 : name.length > 32
  · rw [if_pos c3]; exact ⟨fun h => (by cases h), fun h => by omega⟩
  rw [if_neg c3]
  by_cases c4 : paramsFit params = false
  · rw [if_pos c4]
    exact ⟨fun h => by (cases h), fun h => by have := (paramsFit_iff _).2 h.2.2.2.2.1; rw [c4] at this; cases this⟩
  rw [if_neg c4]
  by_cases c5 : caller.length > 50
  · rw [if_pos c5]; exact ⟨fun h => (by cases h), fun h => by omega⟩
  rw [if_neg c5]
  have base : env.validUtf8 name = true ∧ 0 < name.length ∧ name.length ≤ 32 ∧ RoomFor params ∧ caller.length ≤ 50 :=
    ⟨by simpa using c1, List.length_pos_of_ne_nil c2, by omega, (paramsFit_iff _).1 (by simpa using c4), by omega⟩
  obtain ⟨b1, b2, b3, b4, b5⟩ := base
  unfold enqueueOrSetUp
  cases ha : s.active with
  | some act =>
    rw [if_pos (by rfl)]
    unfold queueRequest
    dsimp only
    by_cases hq : s.queue.length < env.maxQueued
    · rw [if_pos hq]
      dsimp only
      constructor
      · intro h; injection h with h
        exact ⟨h.symm, b1, b2, b3, b4, b5, .inl ⟨by simp, hq⟩⟩
      · rintro ⟨h, -⟩; rw [h]
    · rw [if_neg hq]
      dsimp only
      constructor
      · intro h; cases h
      · rintro ⟨-, -, -, -, -, -, ⟨-, h⟩ | ⟨h, -⟩⟩
        · exact absurd h hq
        · cases h
  | none =>
    rw [if_neg (by simp)]
    have hs := setUpTx_isOk env { s with nextTxId := wrapInc32 s.nextTxId, active := none }
      { txId := s.nextTxId, name := name, params := params, callerId := caller } 0
    have key : Sendable env { s with nextTxId := wrapInc32 s.nextTxId, active := none } name params s.nextTxId ↔
        Sendable env s name params s.nextTxId := Iff.rfl
    simp only [setUp]
    cases hx : setUpTx env { s with nextTxId := wrapInc32 s.nextTxId, active := none }
      { txId := s.nextTxId, name := name, params := params, callerId := caller } 0 with
    | error e =>
      rw [ha] at *
      dsimp only
      constructor
      · intro h; cases h
      · rintro ⟨h, -, -, -, -, -, ⟨h1, -⟩ | ⟨-, h1⟩⟩
        · exact absurd rfl h1
        · subst h
          obtain ⟨s', h2⟩ := hs.2 (key.2 h1)
          rw [hx] at h2; cases h2
    | ok s' =>
      rw [ha] at *
      dsimp only
      constructor
      · intro h; injection h with h
        exact ⟨h.symm, b1, b2, b3, b4, b5, .inr ⟨trivial, by rw [← h]; exact key.1 (hs.1 ⟨s', hx⟩)⟩⟩
      · rintro ⟨h, -⟩; rw [h]

/-- **C151, what an accepted send request does.** With a request in work it joins the end of the queue; otherwise it is the request in work,
with the parameters, deadline, sender and message of `C79`. Nothing else of the bridge changes. -/
theorem C151_request_effect (s : State W) (name : List UInt8) (params : List Param) (caller : List UInt8) (id : Nat)
    (h : (publish env s name params caller).2 = .ok id) :
    let s' := (publish env s name params caller).1
    let r : SendReq := ⟨id, name, params, caller⟩
    s'.settled = s.settled ∧ s'.world = s.world ∧ s'.nextTxId = (id + 1) % 2 ^ 32 ∧
      (s.active ≠ none → s'.active = s.active ∧ s'.queue = s.queue ++ [.send r] ∧ s'.avn = s.avn) ∧
      (s.active = none → (∃ a, s'.active = some a ∧ a.request = .send r) ∧ s'.queue = s.queue) := by
  obtain ⟨b0, b1, b2, b3, b4, b5, b6⟩ := (C151_request_accepted_iff env s name params caller id).1 h
  subst b0
  unfold publish at h ⊢
  rw [if_neg (by simp [b1]), if_neg (List.ne_nil_of_length_pos b2)] at h ⊢
  dsimp only at h ⊢
  rw [if_neg (by omega), if_neg (by simp [(paramsFit_iff _).2 b4]), if_neg (by omega)] at h ⊢
  have hw : wrapInc32 s.nextTxId = (s.nextTxId + 1) % 2 ^ 32 := rfl
  unfold enqueueOrSetUp at h ⊢
  rcases b6 with ⟨ha, hq⟩ | ⟨ha, hs⟩
  · have hsome : s.active.isSome = true := by
      cases e : s.active with
      | none => exact absurd e ha
      | some _ => rfl
    unfold queueRequest
    rw [if_pos hsome, if_pos hq]
    dsimp only
    exact ⟨rfl, rfl, hw, fun _ => ⟨rfl, rfl, rfl⟩, fun h => absurd h ha⟩
  · rw [if_neg (by simp [ha])] at h ⊢
    cases hx : setUp env { s with nextTxId := wrapInc32 s.nextTxId }
      (.send { txId := s.nextTxId, name := name, params := params, callerId := caller }) with
    | error e => rw [hx] at h; cases h
    | ok s2 =>
      dsimp only
      obtain ⟨a, avn, hf, he⟩ := setUp_ok env hx
      subst he
      exact ⟨rfl, rfl, hw, fun h => absurd ha h, fun _ => ⟨⟨a, rfl, hf.1⟩, rfl⟩⟩

/-- **C151, lower proofs.** A request for a lower proof is accepted exactly if the pallet's id has at most 50 bytes and some request is in work
and fewer than the limit wait, or none is in work and the lower makes a message of this bridge instance; it then waits at the end of the queue,
or is the request in work, and nothing else changes. -/
theorem C151_lower_proof_accepted_iff (s : State W) (lid params : Nat) (caller : List UInt8) :
    ((generateLowerProof env s lid params caller).2 = .ok () ↔ caller.length ≤ 50 ∧
      ((s.active ≠ none ∧ s.queue.length < env.maxQueued) ∨
        (s.active = none ∧ ∃ h, env.lowerHash params s.instanceId = some h))) ∧
    ((generateLowerProof env s lid params caller).2 = .ok () →
      let s' := (generateLowerProof env s lid params caller).1
      s'.settled = s.settled ∧ s'.world = s.world ∧ s'.nextTxId = s.nextTxId ∧ s'.avn = s.avn ∧
        (s.active ≠ none → s'.active = s.active ∧ s'.queue = s.queue ++ [.lower ⟨lid, params, caller⟩]) ∧
        (s.active = none → s'.queue = s.queue ∧ ∃ a, s'.active = some a ∧ a.request = .lower ⟨lid, params, caller⟩ ∧ a.confirmations = [] ∧
          env.lowerHash params s.instanceId = some a.msgHash)) ∧
    ((generateLowerProof env s lid params caller).2 ≠ .ok () → (generateLowerProof env s lid params caller).1 = s) := by
  unfold generateLowerProof
  by_cases c : caller.length > 50
  · rw [if_pos c]
    exact ⟨⟨fun h => (by cases h), fun h => by omega⟩, fun h => (by cases h), fun _ => rfl⟩
  rw [if_neg c]
  unfold enqueueOrSetUp
  dsimp only
  cases ha : s.active with
  | some act =>
    rw [if_pos (by rfl)]
    unfold queueRequest
    by_cases hq : s.queue.length < env.maxQueued
    · rw [if_pos hq]
      dsimp only
      exact ⟨⟨fun _ => ⟨by omega, .inl ⟨by simp, hq⟩⟩, fun _ => rfl⟩,
        fun _ => ⟨rfl, rfl, rfl, rfl, fun _ => ⟨ha, rfl⟩, fun h => (by cases h)⟩, fun h => absurd rfl h⟩
    · rw [if_neg hq]
      dsimp only
      refine ⟨⟨fun h => (by cases h), ?_⟩, fun h => (by cases h), fun _ => rfl⟩
      rintro ⟨-, ⟨-, h⟩ | ⟨h, -⟩⟩
      · exact absurd h hq
      · cases h
  | none =>
    rw [if_neg (by simp)]
    unfold setUp setUpLower
    dsimp only
    cases hx : env.lowerHash params s.instanceId with
    | none =>
      dsimp only
      refine ⟨⟨fun h => (by cases h), ?_⟩, fun h => (by cases h), fun _ => rfl⟩
      rintro ⟨-, ⟨h, -⟩ | ⟨-, h, h2⟩⟩
      · exact absurd rfl h
      · cases h2
    | some hh =>
      dsimp only
      exact ⟨⟨fun _ => ⟨by omega, .inr ⟨rfl, hh, rfl⟩⟩, fun _ => rfl⟩,
        fun _ => ⟨rfl, rfl, rfl, rfl, fun h => absurd rfl h, fun _ => ⟨rfl, _, rfl, rfl, rfl, rfl⟩⟩, fun h => absurd rfl h⟩

/-- **C151, the sender's hash.** While a send request is in work, an author's report of an Ethereum transaction hash for it is recorded exactly
if the author is the sender, the report names this request, and no hash is recorded yet; any other report changes nothing. -/
theorem C151_hash_recorded_iff (s : State W) (id hash author : Nat) (req : Active) (r : SendReq) (d : TxData)
    (ha : s.active = some req) (hr : req.request = .send r) (hd : req.txData = some d)
    (hauth : Avn.isValidator s.avn.validators author = true) :
    (r.txId = id ∧ d.sender = author ∧ d.ethTxHash = 0 → step env s (.ethTxHash id hash author) =
        { s with active := some { req with txData := some { d with ethTxHash := hash }, lastUpdated := s.block } }) ∧
      (¬ (r.txId = id ∧ d.sender = author ∧ d.ethTxHash = 0) → step env s (.ethTxHash id hash author) = s) := by
  simp only [step]
  rw [if_pos hauth]
  unfold addEthTxHash
  rw [ha]
  dsimp only
  constructor
  · rintro ⟨h1, h2, h3⟩
    rw [if_neg (by simp [hr, Request.idMatches, h1]), hd]
    dsimp only
    rw [if_neg (by simp [h3]), if_neg (by simp [h2])]
    rfl
  · intro h
    by_cases h1 : r.txId = id
    · rw [if_neg (by simp [hr, Request.idMatches, h1]), hd]
      dsimp only
      by_cases h3 : d.ethTxHash = 0
      · rw [if_neg (by simp [h3]), if_pos (fun h2 => h ⟨h1, h2, h3⟩)]
        rfl
      · rw [if_pos h3]; rfl
    · rw [if_pos (by simp [hr, Request.idMatches, h1])]
      rfl

/-- A corroboration that counts: by an author other than the sender who has not corroborated this attempt yet, for the request in work and its
current attempt, with room on the two lists it goes to. -/
def Counts (s : State W) (r : SendReq) (d : TxData) (id : Nat) (ok hashValid : Bool) (author replay : Nat) : Prop :=
  Avn.isValidator s.avn.validators author = true ∧ r.txId = id ∧ replay = d.replay ∧ author ≠ d.sender ∧
    author ∉ d.success ∧ author ∉ d.failure ∧ (if hashValid then d.validHash else d.invalidHash).length < 100 ∧
    (if ok then d.success else d.failure).length < 100

theorem enough_iff (s : State W) (n author : Nat) (h : Avn.isValidator s.avn.validators author = true)
    (hl : s.avn.validators.length < 2 ^ 32) :
    enoughCorroborations s n = true ↔ Avn.requiredFor (s.avn.validators.length - 1) ≤ n := by
  have hp : 0 < s.avn.validators.length := by
    rcases Nat.eq_zero_or_pos s.avn.validators.length with e | e
    · rw [List.eq_nil_of_length_eq_zero e] at h; simp [Avn.isValidator] at h
    · exact e
  unfold enoughCorroborations nAuthors
  rw [decide_eq_true_iff]
  have : (s.avn.validators.length + pow32 - 1) % pow32 = s.avn.validators.length - 1 := by
    have hp32 : pow32 = 2 ^ 32 := rfl
    rw [hp32]; omega
  rw [this]

theorem counts_step (s : State W) (id : Nat) (ok hv : Bool) (author replay : Nat) (req : Active) (r : SendReq) (d : TxData)
    (ha : s.active = some req) (hr : req.request = .send r) (hd : req.txData = some d)
    (hc : Counts s r d id ok hv author replay) :
    step env s (.corroborate id ok hv author replay) = commit s
      (if enoughCorroborations s (if ok then (addCorr d ok hv author).success else (addCorr d ok hv author).failure).length then
        finalizeState env s r (addCorr d ok hv author) ok
      else .ok { s with active := some { req with txData := some (addCorr d ok hv author), lastUpdated := s.block } }) := by
  obtain ⟨c1, c2, c3, c4, c5, c6, c7, c8⟩ := hc
  simp only [step]
  rw [if_pos c1]
  unfold addCorroboration
  rw [ha]
  dsimp only
  rw [if_neg (by simp [hr, Request.idMatches, c2]), hd]
  dsimp only
  rw [if_neg (by simp [c3]), if_neg c4, if_neg (by simp [c5, c6]), if_neg (by unfold confirmationsLimit; omega),
    if_neg (by unfold confirmationsLimit; omega), hr]

/-- **C151, corroborations that do not count** change nothing. -/
theorem C151_other_corroborations_do_nothing (s : State W) (id : Nat) (ok hv : Bool) (author replay : Nat) (req : Active) (r : SendReq)
    (d : TxData) (ha : s.active = some req) (hr : req.request = .send r) (hd : req.txData = some d)
    (hc : ¬ Counts s r d id ok hv author replay) : step env s (.corroborate id ok hv author replay) = s := by
  simp only [step]
  by_cases c1 : Avn.isValidator s.avn.validators author = true
  swap
  · rw [if_neg c1]
  rw [if_pos c1]
  unfold addCorroboration
  rw [ha]
  dsimp only
  by_cases c2 : r.txId = id
  swap
  · rw [if_pos (by simp [hr, Request.idMatches, c2])]; rfl
  rw [if_neg (by simp [hr, Request.idMatches, c2]), hd]
  dsimp only
  by_cases c3 : replay = d.replay
  swap
  · rw [if_pos c3]; rfl
  rw [if_neg (by simp [c3])]
  by_cases c4 : author = d.sender
  · rw [if_pos c4]; rfl
  rw [if_neg c4]
  by_cases c5 : author ∈ d.success ∨ author ∈ d.failure
  · rw [if_pos c5]; rfl
  rw [if_neg c5]
  by_cases c7 : (if hv then d.validHash else d.invalidHash).length ≥ confirmationsLimit
  · rw [if_pos c7]; rfl
  rw [if_neg c7]
  by_cases c8 : (if ok then d.success else d.failure).length ≥ confirmationsLimit
  · rw [if_pos c8]; rfl
  exact absurd ⟨c1, c2, c3, c4, fun h => c5 (.inl h), fun h => c5 (.inr h), Nat.not_le.1 c7, Nat.not_le.1 c8⟩ hc

/-- **C151, corroborations that count** are added to the list for their outcome and to the one for their verdict on the hash, until the outcome
has a quorum of the authors other than the sender. -/
theorem C151_corroboration_counted (s : State W) (id : Nat) (ok hv : Bool) (author replay : Nat) (req : Active) (r : SendReq) (d : TxData)
    (ha : s.active = some req) (hr : req.request = .send r) (hd : req.txData = some d) (hl : s.avn.validators.length < 2 ^ 32)
    (hc : Counts s r d id ok hv author replay)
    (hq : (if ok then d.success else d.failure).length + 1 < Avn.requiredFor (s.avn.validators.length - 1)) :
    step env s (.corroborate id ok hv author replay) =
      { s with active := some { req with lastUpdated := s.block, txData := some { d with
        success := d.success ++ (if ok then [author] else [])
        failure := d.failure ++ (if ok then [] else [author])
        validHash := d.validHash ++ (if hv then [author] else [])
        invalidHash := d.invalidHash ++ (if hv then [] else [author]) } } } := by
  rw [counts_step env s id ok hv author replay req r d ha hr hd hc, if_neg]
  · unfold addCorr commit
    cases ok <;> cases hv <;> simp
  · rw [enough_iff s _ author hc.1 hl]
    unfold addCorr
    cases ok <;> cases hv <;> simp at hq ⊢ <;> omega

/-- **C151, a decided outcome** is settled: when the corroboration completes the quorum, the rest of the runtime takes the notification, and it is not
a failure whose hash a quorum found invalid, the request gets its record and its pallet is told. -/
theorem C151_decided_is_settled (s : State W) (id : Nat) (ok hv : Bool) (author replay : Nat) (req : Active) (r : SendReq) (d : TxData)
    (ha : s.active = some req) (hr : req.request = .send r) (hd : req.txData = some d) (hl : s.avn.validators.length < 2 ^ 32)
    (hc : Counts s r d id ok hv author replay)
    (hq : Avn.requiredFor (s.avn.validators.length - 1) ≤ (if ok then d.success else d.failure).length + 1)
    (hn : (env.onResult s.world r.txId r.callerId ok).2 = true)
    (hi : ok = true ∨ (d.invalidHash ++ (if hv then [] else [author])).length < Avn.requiredFor (s.avn.validators.length - 1)) :
    let s' := step env s (.corroborate id ok hv author replay)
    (∃ hash, s'.settled id = some ⟨r.name, d.params, d.sender, hash, ok⟩) ∧
      (∃ more, s'.log = s.log ++ .result id r.callerId ok :: more) := by
  intro s'
  have e := counts_step env s id ok hv author replay req r d ha hr hd hc
  rw [if_pos] at e
  swap
  · rw [enough_iff s _ author hc.1 hl]
    unfold addCorr
    cases ok <;> cases hv <;> simp at hq ⊢ <;> omega
  have hf : finalizeState env s r (addCorr d ok hv author) ok = completeTransaction env s r (addCorr d ok hv author) ok := by
    unfold finalizeState
    rw [if_neg]
    simp only [Bool.and_eq_true, Bool.not_eq_true', not_and]
    rintro rfl
    rcases hi with hi | hi
    · cases hi
    · intro h
      rw [enough_iff s _ author hc.1 hl] at h
      unfold addCorr at h
      cases hv <;> simp at h hi <;> omega
  rw [hf] at e
  unfold completeTransaction at e
  dsimp only at e
  rw [if_neg (by simp [hn])] at e
  have hlog : s'.log ≠ s.log := by
    show (step env s _).log ≠ s.log
    rw [e]
    obtain ⟨more, h⟩ := processNext_log env { s with
      world := (env.onResult s.world r.txId r.callerId ok).1
      settled := upd s.settled r.txId (some { name := r.name, params := (addCorr d ok hv author).params, sender := (addCorr d ok hv author).sender, ethTxHash := if (ok && enoughCorroborations s (addCorr d ok hv author).invalidHash.length) = true then 0 else (addCorr d ok hv author).ethTxHash, succeeded := ok })
      log := s.log ++ [.result r.txId r.callerId ok] }
    unfold commit
    dsimp only
    rw [h]
    simp
  obtain ⟨req', r', d', hash, more, h1, h2, h3, h4, h5, h6⟩ := C80_decided_is_recorded env s id ok hv author replay hlog
  rw [ha] at h1; cases h1
  rw [hr] at h2; cases h2
  rw [hd] at h4; cases h4
  exact ⟨⟨hash, h5⟩, more, h6⟩

/-- **C151, a failure whose hash a quorum found invalid** is sent again under the next attempt number, if it still can be. -/
theorem C151_failed_send_is_repeated (s : State W) (id : Nat) (hv : Bool) (author replay : Nat) (req : Active) (r : SendReq) (d : TxData)
    (ha : s.active = some req) (hr : req.request = .send r) (hd : req.txData = some d) (hl : s.avn.validators.length < 2 ^ 32)
    (hc : Counts s r d id false hv author replay)
    (hq : Avn.requiredFor (s.avn.validators.length - 1) ≤ d.failure.length + 1)
    (hi : Avn.requiredFor (s.avn.validators.length - 1) ≤ (d.invalidHash ++ (if hv then [] else [author])).length)
    (hs : Sendable env s r.name r.params r.txId) :
    let s' := step env s (.corroborate id false hv author replay)
    Prepared env s s' r (min (d.replay + 1) 65535) ∧ s'.log = s.log ∧ s'.queue = s.queue ∧ s'.settled = s.settled ∧ s'.world = s.world := by
  intro s'
  have e := counts_step env s id false hv author replay req r d ha hr hd hc
  rw [if_pos] at e
  swap
  · rw [enough_iff s _ author hc.1 hl]
    unfold addCorr
    cases hv <;> simp at hq ⊢ <;> omega
  have hrep : (addCorr d false hv author).replay = d.replay := by unfold addCorr; cases hv <;> rfl
  have hf : finalizeState env s r (addCorr d false hv author) false = setUpTx env s r (min (d.replay + 1) 65535) := by
    unfold finalizeState
    rw [if_pos, hrep]
    simp only [Bool.not_false, Bool.true_and]
    rw [enough_iff s _ author hc.1 hl]
    unfold addCorr
    cases hv <;> simp at hi ⊢ <;> omega
  obtain ⟨s2, hs2⟩ := (setUpTx_isOk env s r (min (d.replay + 1) 65535)).2 hs
  rw [hf, hs2] at e
  have e : s' = s2 := e
  rw [e]
  obtain ⟨h1, -, -, -, -, h6, h7, h8, h9⟩ := setUpTx_prepared env hs2
  exact ⟨h1, h7, h9, h8, h6⟩

/-- **C151, removal of the request in work.** Root's removal is carried out exactly if a request is in work; its pallet is told that it failed, and
that very request is no longer in work unless an equal one was waiting. -/
theorem C151_removal (s : State W) :
    ((∃ s', removeActive env s = .ok s') ↔ s.active ≠ none) ∧
      ∀ req, s.active = some req → ∃ more, (step env s .removeActive).log = s.log ++ failObs req.request :: more := by
  unfold removeActive
  constructor
  · cases s.active with
    | none => simp
    | some req => simp
  · intro req ha
    simp only [step, removeActive, ha, commit]
    obtain ⟨more, h⟩ := processNext_log env (notifyFailed env s req.request)
    refine ⟨more, ?_⟩
    rw [h]
    cases req.request <;> simp [notifyFailed, failObs]

/-- **C151, the bridge instance.** Root's new instance is taken exactly if it is valid and the send request in work, if there is one, can be set up
under it. -/
theorem C151_instance_accepted_iff (s : State W) (valid : Bool) (i : Nat) :
    (∃ s', setInstance env s valid i = .ok s') ↔ valid = true ∧
      ∀ req r, s.active = some req → req.request = .send r → Sendable env { s with instanceId := i } r.name r.params r.txId := by
  unfold setInstance
  cases valid with
  | false => simp
  | true =>
    rw [if_neg (by simp)]
    dsimp only
    cases ha : s.active with
    | none => simp
    | some req =>
      dsimp only
      cases hr : req.request with
      | lower r =>
        dsimp only
        refine ⟨fun _ => ⟨rfl, ?_⟩, fun _ => ⟨_, rfl⟩⟩
        rintro req' r' h h'
        cases h; rw [hr] at h'; cases h'
      | send r =>
        dsimp only
        rw [setUpTx_isOk env _ r 0]
        constructor
        · intro h
          refine ⟨rfl, ?_⟩
          rintro req' r' h1 h2
          cases h1
          rw [hr] at h2
          cases h2
          exact h
        · rintro ⟨-, h⟩
          exact h req r rfl hr

/-- **C151, confirmations of a lower proof.** While a lower proof is in work, an author's confirmation for it counts exactly if it is that author's
signature of the message, is not held yet, and fewer than 100 are held; before the last one needed it is added, and with it the supermajority of the
authors the proof, with all the confirmations, goes to the pallet that asked. -/
theorem C151_lower_confirmation (s : State W) (id sig author : Nat) (req : Active) (r : LowerReq) (ha : s.active = some req)
    (hr : req.request = .lower r) (hauth : Avn.isValidator s.avn.validators author = true) (hid : r.lowerId = id)
    (hsig : env.signer req.msgHash sig = some author) (hnew : sig ∉ req.confirmations) (hroom : req.confirmations.length < 100)
    (hopen : req.confirmations.length < Avn.requiredForSupermajority s.avn.validators.length) :
    let s' := step env s (.confirm id sig author)
    (req.confirmations.length + 1 < Avn.requiredForSupermajority s.avn.validators.length →
        s' = { s with active := some { req with confirmations := req.confirmations ++ [sig], lastUpdated := s.block } }) ∧
      (req.confirmations.length + 1 = Avn.requiredForSupermajority s.avn.validators.length →
        ∃ more, s'.log = s.log ++ .lowerResult id r.callerId (some (r.params, req.confirmations ++ [sig])) :: more) := by
  intro s'
  have e : s' = commit s (if enoughConfirmations s (.lower r) (req.confirmations ++ [sig]).length then
      .ok (completeLower env s r (req.confirmations ++ [sig]))
      else .ok { s with active := some { req with confirmations := req.confirmations ++ [sig], lastUpdated := s.block } }) := by
    show step env s _ = _
    simp only [step]
    rw [if_pos hauth]
    unfold addConfirmation
    rw [ha]
    dsimp only
    rw [if_neg (by simp [hr, Request.idMatches, hid]), if_neg (by rw [hr]; intro hh; exact absurd (of_decide_eq_true hh) (Nat.not_le.2 hopen)),
      if_neg (by simp [isSender, hr]), if_neg (by simp [verifySignature, hauth, hsig]), if_neg hnew,
      if_neg (by unfold confirmationsLimit; omega), hr]
  constructor
  · intro h
    rw [e, if_neg]
    · rfl
    · simp [enoughConfirmations, nAuthors]; exact h
  · intro h
    rw [e, if_pos]
    · unfold completeLower commit
      dsimp only
      obtain ⟨more, h2⟩ := processNext_log env { s with
        world := (env.onLower s.world r.lowerId r.callerId (some (r.params, req.confirmations ++ [sig]))).1
        log := s.log ++ [.lowerResult r.lowerId r.callerId (some (r.params, req.confirmations ++ [sig]))] }
      refine ⟨more, ?_⟩
      rw [h2, ← hid]
      simp
    · simp [enoughConfirmations, nAuthors]; omega

/-! ### Examples -/

/-- A request that can be set up and is, one that waits, one the full queue refuses, and one with too long a name. -/
example :
    (publish exEnv ex0 [65] [] [1]).2 = .ok 5 ∧
    (publish exEnv (run exEnv ex0 (exSteps.take 1)) [66] [] [2]).2 = .ok 6 ∧
    (publish exEnv (run exEnv ex0 (exSteps.take 4)) [66] [] [2]).2 = .error .queueFull ∧
    (publish exEnv ex0 (List.replicate 33 65) [] [1]).2 = .error .functionNameLimit := by decide +kernel
/-- Five authors. -/
private def ex5 : State Nat := initial 0 { exAvn with validators := exAvn.validators ++ [⟨5, 5⟩] } 5
/-- With five authors the first corroboration counts and is below the quorum; the second decides. -/
example :
    let s := run exEnv ex5 (exSteps.take 5)
    let s1 := run exEnv ex5 (exSteps.take 6)
    s.active.bind (·.txData) = some ⟨[(ascii "uint256", ascii "1800"), (ascii "uint32", ascii "5")], 2, 1800, 1234, [], [], [], [], 0⟩ ∧
    Avn.requiredFor (s.avn.validators.length - 1) = 2 ∧
    s1.active.bind (·.txData) = some ⟨[(ascii "uint256", ascii "1800"), (ascii "uint32", ascii "5")], 2, 1800, 1234, [1], [], [1], [], 0⟩ ∧
    (exEnv.onResult s1.world 5 [1] true).2 = true ∧
    (run exEnv ex5 (exSteps.take 7)).settled 5 =
      some ⟨[65], [(ascii "uint256", ascii "1800"), (ascii "uint32", ascii "5")], 2, 1234, true⟩ := by decide +kernel
/-- Two authors find that the transaction failed and that its hash is wrong: it is sent again as attempt 1, by the next author. -/
example :
    ((run exEnv ex5 [.publish [65] [] [1] true, .corroborate 5 false false 1 0, .corroborate 5 false false 3 0]).active.bind (·.txData)).map
      (fun d => (d.sender, d.replay, d.failure, d.invalidHash)) = some (3, 1, [], []) := by decide +kernel
/-- A lower proof: the first confirmation is added, the last one needed completes it. -/
example :
    Avn.requiredForSupermajority 4 = 2 ∧
    ((run exEnv ex0 [.lowerProof 9 3 [3], .confirm 9 10 1]).active.map (·.confirmations)) = some [10] ∧
    (run exEnv ex0 [.lowerProof 9 3 [3], .confirm 9 10 1, .confirm 9 20 2]).log.getLast? =
      some (.lowerResult 9 [3] (some (3, [10, 20]))) := by decide +kernel

end Verif.BridgeTx
