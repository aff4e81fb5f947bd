import Verif.Lemmas.Deposits

/-!
# The composed system: where delivered events come from
-/

namespace Verif.EthBridge

variable {W : Type} (handler : W → EthEvent → W × Bool)

/-- A vote on record after a step was there before or was cast by the step. -/
theorem vote_step (s : State W) (im : MapInv s.votes) (op : Step W) :
    MapInv (step handler s op).votes ∧
      ∀ p vs a, (p, vs) ∈ (step handler s op).votes → a ∈ vs →
        (∃ vs', (p, vs') ∈ s.votes ∧ a ∈ vs') ∨
        (op = .submitEvents a p ∧ a ∈ s.authors ∧ (submitEvents handler s a p).2 = none) := by
  have hv := step_view handler s op
  generalize step handler s op = s' at hv
  cases hv with
  | vote a p act vs hauth hok hact hr hn hv hi hq =>
    refine ⟨(im.insert hv hi).1, ?_⟩
    intro p' vs' a' hm ha
    rcases setVotes_mem _ _ _ _ hm with he | he
    · simp only [Prod.mk.injEq] at he
      obtain ⟨rfl, rfl⟩ := he
      rw [tryInsert_new hv hi] at ha
      rcases List.mem_append.1 ha with ha | ha
      · exact .inl ⟨_, lookupVotes_mem _ _ _ ha, ha⟩
      · have : a' = a := by simpa using ha
        subst this
        exact .inr ⟨rfl, hauth, hok⟩
    · exact .inl ⟨_, he, ha⟩
  | approve a p act vs s' _ _ _ _ _ _ _ _ hvotes => simp [hvotes, MapInv.nil]
  | block => exact ⟨im, fun p vs a hm ha => .inl ⟨_, hm, ha⟩⟩
  | select => exact ⟨im, fun p vs a hm ha => .inl ⟨_, hm, ha⟩⟩
  | quiet op s' _ _ _ _ hvotes =>
    rcases hvotes with hv | ⟨n, keep, hv⟩
    · rw [hv]; exact ⟨im, fun p vs a hm ha => .inl ⟨_, hm, ha⟩⟩
    · rw [hv]
      have hsub := clearVotes_sublist n keep s.votes
      exact ⟨im.sublist hsub, fun p vs a hm ha => .inl ⟨_, hsub.mem hm, ha⟩⟩

/-- A step that processes a partition does so with a quorum of votes. -/
theorem approval_step (s : State W) (im : MapInv s.votes) (op : Step W) (p : Partition) (new : List Obs)
    (hl : (step handler s op).log = s.log ++ new) (hp : p ∈ approvedOf new) :
    ∃ voters : List Nat, voters.Nodup ∧ quorum s.authors ≤ voters.length ∧
      ∀ a ∈ voters, (∃ vs', (p, vs') ∈ s.votes ∧ a ∈ vs') ∨
        (op = .submitEvents a p ∧ a ∈ s.authors ∧ (submitEvents handler s a p).2 = none) := by
  have hv := step_view handler s op
  generalize step handler s op = s' at hv hl
  cases hv with
  | vote a q act vs =>
    have : new = [.eventVote a q] := (List.append_cancel_left hl).symm
    subst this; simp [approvedOf] at hp
  | approve a q act vs s' hauth hok hact hr hn hv hi hq hvotes hauths hsub hact' hqueue hgrow new' hlog hnew =>
    have : new = [.eventVote a q, .approved q] ++ new' := by
      rw [hlog] at hl; exact (List.append_cancel_left hl).symm
    subst this
    have hq' : approvedOf new' = [] := by
      unfold approvedOf
      rw [List.filterMap_eq_nil_iff]
      intro o ho
      obtain ⟨d, _, rfl | rfl | rfl⟩ := hnew o ho <;> rfl
    have hpq : p = q := by
      rw [approvedOf_append, hq'] at hp
      simpa [approvedOf] using hp
    subst hpq
    have hvs := tryInsert_new hv hi
    refine ⟨vs, ?_, hq, ?_⟩
    · rw [hvs, List.nodup_append]
      refine ⟨lookup_nodup im p, by simp, ?_⟩
      intro x hx y hy hxy
      have : y = a := by simpa using hy
      subst this; subst hxy
      exact hasVoted_false _ _ hv _ (lookupVotes_mem _ _ _ hx) hx
    · intro b hb
      rw [hvs] at hb
      rcases List.mem_append.1 hb with hb | hb
      · exact .inl ⟨_, lookupVotes_mem _ _ _ hb, hb⟩
      · have : b = a := by simpa using hb
        subst this
        exact .inr ⟨rfl, hauth, hok⟩
  | block a l b vs =>
    have : new = [.blockVote a b] := (List.append_cancel_left hl).symm
    subst this; simp [approvedOf] at hp
  | select a l b vs r =>
    have : new = [.blockVote a b, .rangeSelected r] := by
      simp only [List.append_assoc] at hl
      exact (List.append_cancel_left hl).symm
    subst this; simp [approvedOf] at hp
  | quiet op s' hlog =>
    have : new = [] := by rw [hlog] at hl; simpa using hl
    subst this; simp [approvedOf] at hp

end Verif.EthBridge

namespace Verif.Deposits

open Verif Verif.Lower

variable (decode : Nat → TokenManager.EventData)

/-- Specification: author `a` voted for partition `p` during `steps`: some transaction is that call, made while `a` was
an author, and it succeeded. -/
def Voted (s0 : State) (steps : List Step) (a : Nat) (p : EthBridge.Partition) : Prop :=
  ∃ pre envs post, steps = pre ++ .bridge envs (.submitEvents a p) :: post ∧
    a ∈ (run decode s0 pre).bridge.authors ∧
    (EthBridge.submitEvents (bridgeHandler decode)
      { (run decode s0 pre).bridge with world := { (run decode s0 pre).bridge.world with envs := envs } } a p).2 = none

theorem Voted.mono {s0 : State} {steps : List Step} {a : Nat} {p : EthBridge.Partition} (st : Step)
    (h : Voted decode s0 steps a p) : Voted decode s0 (steps ++ [st]) a p := by
  obtain ⟨pre, envs, post, rfl, h1⟩ := h
  exact ⟨pre, envs, post ++ [st], by simp, h1⟩

theorem record_votes (b : EthBridge.State World) (before after : Nat → Option Bool) (op : LegacyOp) :
    (recordOp b before after op).votes = b.votes ∧ (recordOp b before after op).log = b.log := by
  unfold recordOp
  cases op.target with
  | none => exact ⟨rfl, rfl⟩
  | some id =>
    dsimp only
    unfold record
    split
    · exact ⟨rfl, rfl⟩
    · cases ha : EthBridge.addProcessedEvent b { signature := id.signature, txHash := id.txHash, payload := 0 } true with
      | none => exact ⟨rfl, rfl⟩
      | some b' => obtain ⟨k, rfl⟩ := EthBridge.addProcessedEvent_spec ha; exact ⟨rfl, rfl⟩

/-- Steps other than those at the bridge leave its votes and log alone. -/
theorem bridge_quiet (s : State) (st : Step) (h : ∀ envs op, st ≠ .bridge envs op) :
    (step decode s st).bridge.votes = s.bridge.votes ∧ (step decode s st).bridge.log = s.bridge.log := by
  cases st with
  | bridge envs op => exact absurd rfl (h envs op)
  | legacy envs nftOk op => exact record_votes _ _ _ op
  | token env st => simp only [step]; split <;> exact ⟨rfl, rfl⟩
  | block n vs => exact ⟨rfl, rfl⟩

theorem toStep_submit {op : BridgeOp} {a : Nat} {p : EthBridge.Partition} (h : op.toStep = .submitEvents a p) :
    op = .submitEvents a p := by
  cases op <;> simp [BridgeOp.toStep] at h ⊢
  exact h

theorem votes_run (s0 : State) (h0 : s0.bridge.votes = []) (steps : List Step) :
    EthBridge.MapInv (run decode s0 steps).bridge.votes ∧
      ∀ p vs a, (p, vs) ∈ (run decode s0 steps).bridge.votes → a ∈ vs → Voted decode s0 steps a p := by
  induction steps using List.reverseRecOn with
  | nil => simp [run, h0, EthBridge.MapInv.nil]
  | append_singleton steps st ih =>
    rw [run_snoc]
    obtain ⟨im, ic⟩ := ih
    by_cases hb : ∃ envs op, st = .bridge envs op
    · obtain ⟨envs, op, rfl⟩ := hb
      obtain ⟨hm, hv⟩ := EthBridge.vote_step (bridgeHandler decode)
        { (run decode s0 steps).bridge with world := { (run decode s0 steps).bridge.world with envs := envs } } im op.toStep
      refine ⟨hm, ?_⟩
      intro p vs a hp ha
      rcases hv p vs a hp ha with ⟨vs', h1, h2⟩ | ⟨h1, h2, h3⟩
      · exact (ic p vs' a h1 h2).mono decode _
      · rw [toStep_submit h1]
        exact ⟨steps, envs, [], rfl, h2, h3⟩
    · have := bridge_quiet decode (run decode s0 steps) st (fun envs op h => hb ⟨envs, op, h⟩)
      rw [this.1]
      exact ⟨im, fun p vs a h1 h2 => (ic p vs a h1 h2).mono decode _⟩

theorem bridge_log_origin (s0 : State) (h0 : s0.bridge.log = []) (steps : List Step) (o : EthBridge.Obs)
    (ho : o ∈ (run decode s0 steps).bridge.log) :
    ∃ pre envs op post new, steps = pre ++ .bridge envs op :: post ∧ o ∈ new ∧
      (EthBridge.step (bridgeHandler decode)
        { (run decode s0 pre).bridge with world := { (run decode s0 pre).bridge.world with envs := envs } } op.toStep).log =
        (run decode s0 pre).bridge.log ++ new := by
  induction steps using List.reverseRecOn with
  | nil => simp [run, h0] at ho
  | append_singleton steps st ih =>
    rw [run_snoc] at ho
    by_cases hb : ∃ envs op, st = .bridge envs op
    · obtain ⟨envs, op, rfl⟩ := hb
      obtain ⟨new, hl, -⟩ := EthBridge.step_grow (bridgeHandler decode)
        { (run decode s0 steps).bridge with world := { (run decode s0 steps).bridge.world with envs := envs } } op.toStep
      simp only [step] at ho
      rw [hl, List.mem_append] at ho
      rcases ho with ho | ho
      · obtain ⟨pre, envs', op', post, new', rfl, h⟩ := ih ho
        exact ⟨pre, envs', op', post ++ [.bridge envs op], new', by simp, h⟩
      · exact ⟨steps, envs, op, [], new, rfl, ho, hl⟩
    · have := bridge_quiet decode (run decode s0 steps) st (fun envs op h => hb ⟨envs, op, h⟩)
      rw [this.2] at ho
      obtain ⟨pre, envs', op', post, new', rfl, h⟩ := ih ho
      exact ⟨pre, envs', op', post ++ [st], new', by simp, h⟩

/-! ### The other pallet -/

/-- Its invariants survive everything the rest of the system does. -/
theorem legacy_inv_step {tm0 : TokenManager.State} {s : State} (hs : Inv decode tm0 s) (h : EthEvents.Inv s.legacy) (st : Step) :
    EthEvents.Inv (step decode s st).legacy := by
  cases st with
  | bridge envs op =>
    obtain ⟨new, -, hmono, -⟩ := EthBridge.step_grow (bridgeHandler decode)
      { s.bridge with world := { s.bridge.world with envs := envs } } op.toStep
    refine ⟨h.nodup, h.known, ?_, h.traced, h.chal, h.distinct, h.first⟩
    refine EthEvents.once_mono (s := s.legacy) h.once (fun _ => rfl) ?_
    intro t ht
    rw [hs.processed, view_isSome] at ht
    show (view _ t).isSome = true
    rw [view_isSome]
    exact hmono t ht
  | legacy envs nftOk op =>
    refine EthEvents.inv_view ?_ (EthEvents.step_view _ op.toStep)
    exact ⟨h.nodup, h.known, h.once, h.traced, h.chal, h.distinct, h.first⟩
  | token env st =>
    simp only [step]; split
    · exact ⟨h.nodup, h.known, h.once, h.traced, h.chal, h.distinct, h.first⟩
    · exact h
  | block n vs => exact ⟨h.nodup, h.known, h.once, h.traced, h.chal, h.distinct, h.first⟩

theorem legacy_inv_run {tm0 : TokenManager.State} {s0 : State} (hs : Inv decode tm0 s0) (h : EthEvents.Inv s0.legacy)
    (steps : List Step) : EthEvents.Inv (run decode s0 steps).legacy := by
  induction steps using List.reverseRecOn with
  | nil => exact h
  | append_singleton l st ih => rw [run_snoc]; exact legacy_inv_step decode (inv_run decode hs l) ih st

theorem legacy_quiet (s : State) (st : Step) (h : ∀ envs nftOk op, st ≠ .legacy envs nftOk op) :
    (step decode s st).legacy.log = s.legacy.log := by
  cases st with
  | legacy envs nftOk op => exact absurd rfl (h envs nftOk op)
  | bridge envs op => rfl
  | token env st => simp only [step]; split <;> rfl
  | block n vs => rfl

theorem legacy_log_origin (s0 : State) (h0 : s0.legacy.log = []) (steps : List Step) (o : Nat × EthEvents.Obs)
    (ho : o ∈ (run decode s0 steps).legacy.log) :
    ∃ pre envs nftOk op post new, steps = pre ++ .legacy envs nftOk op :: post ∧ o ∈ new ∧
      (EthEvents.step (legacyHandler decode)
        { (run decode s0 pre).legacy with
          world := { (run decode s0 pre).legacy.world with envs := envs, nftOk := nftOk } } op.toStep).log =
        (run decode s0 pre).legacy.log ++ new := by
  induction steps using List.reverseRecOn with
  | nil => simp [run, h0] at ho
  | append_singleton steps st ih =>
    rw [run_snoc] at ho
    by_cases hb : ∃ envs nftOk op, st = .legacy envs nftOk op
    · obtain ⟨envs, nftOk, op, rfl⟩ := hb
      have hx := EthEvents.log_origin (legacyHandler decode)
        { (run decode s0 steps).legacy with
          world := { (run decode s0 steps).legacy.world with envs := envs, nftOk := nftOk } } [op.toStep] o ho
      rcases hx with ho | ⟨pre, t, post, hsplit, new, hmem, hl⟩
      · obtain ⟨pre, envs', nftOk', op', post, new', rfl, h⟩ := ih ho
        exact ⟨pre, envs', nftOk', op', post ++ [.legacy envs nftOk op], new', by simp, h⟩
      · have : pre = [] ∧ t = op.toStep := by
          cases pre with
          | nil => simp at hsplit; exact ⟨rfl, hsplit.1.symm⟩
          | cons x xs => simp at hsplit
        obtain ⟨rfl, rfl⟩ := this
        exact ⟨steps, envs, nftOk, op, [], new, rfl, hmem, hl⟩
    · have := legacy_quiet decode (run decode s0 steps) st (fun envs nftOk op h => hb ⟨envs, nftOk, op, h⟩)
      rw [this] at ho
      obtain ⟨pre, envs', nftOk', op', post, new', rfl, h⟩ := ih ho
      exact ⟨pre, envs', nftOk', op', post ++ [st], new', by simp, h⟩

end Verif.Deposits
