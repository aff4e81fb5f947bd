import Verif.Lemmas.LowerFlow2

/-!
# Property C100: lowers end to end

The token manager and the bridge run together (`Model/LowerFlow`): requests for proofs go from one to the other, results
come back. Histories start with no lower and no request anywhere, contain no manual `execute_lower` by root, and hand out
fewer than 2^32 lower ids.
-/

namespace Verif.LowerFlow
open Verif.TokenManager (Env Step LowersOk stageCount NotRootLower LowerCall)
open Verif.BridgeTx (Request LowerReq Obs outstanding Answers Tidy notify)
open Verif.Lower

variable {X : Type} (p : Params X)

/-- No lower and no request exists. -/
def Genesis (s0 : State X) : Prop :=
  s0.active = none ∧ s0.queue = [] ∧ s0.log = [] ∧ ∀ i, stageCount s0.world.1 i = 0

/-- No manual `execute_lower` by root, and the `u32` counter of lower ids does not wrap. -/
def Regular (s0 : State X) (ops : List (Op X)) : Prop :=
  (∀ env c i, Op.token env (.rootExecuteLower c i) ∉ ops) ∧ s0.world.1.lowerNonce + ops.length < pow32

/-- The request asks for a proof of lower `i`. -/
def asksFor (i : Nat) : Request → Bool
  | .lower q => q.lowerId == i
  | .send _ => false

/-- The requests for a proof of lower `i` the bridge has accepted and not answered: active first, then waiting. -/
def requestsFor (s : State X) (i : Nat) : List Request :=
  (s.active.toList.map BridgeTx.Active.request ++ s.queue).filter (asksFor i)

/-- Lower `i` with packed parameters `ps` is in the hands of the token manager: its proof is pending, ready to be claimed
on Ethereum, or failed. -/
def Held (w : TokenManager.State) (i : Nat) (ps : List UInt8) : Prop :=
  w.pending i = some ps ∨ w.ready i = some ps ∨ w.failed i = some ps

/-- The invariant behind the theorems. -/
structure Inv (s : State X) : Prop where
  tidy : Tidy s
  ok : LowersOk s.world.1
  synced : Synced (outstanding s) s.world.1

theorem run_snoc (s : State X) (ops : List (Op X)) (op : Op X) : run p s (ops ++ [op]) = step p (run p s ops) op := by
  simp [run]

theorem run_append (s : State X) (a b : List (Op X)) : run p s (a ++ b) = run p (run p s a) b := by
  simp [run]

theorem genesis_inv {s0 : State X} (h : Genesis s0) : Inv s0 := by
  obtain ⟨h1, h2, h3, h4⟩ := h
  refine ⟨⟨by simp [h2], by simp [h1]⟩, fun i => by rw [h4 i]; exact ⟨by omega, fun _ => rfl⟩, ?_⟩
  have ho : outstanding s0 = [] := by simp [outstanding, h1, h2]
  rw [ho]
  refine ⟨by simp [lowers], by simp [lowers], by simp [lowers], fun i ps hi => ?_⟩
  have := h4 i
  unfold stageCount at this
  rw [hi] at this
  simp at this

/-- The three kinds of step of the joint system. -/
inductive StepView (s : State X) : Op X → State X → Prop
  | idle (op : Op X) (s' : State X) (hw : s'.world.1 = s.world.1) (ho : outstanding s' = outstanding s) (hl : s'.log = s.log)
      (ha : s'.active = s.active) (ht : Tidy s') (hno : ∀ env st, op = .token env st → ∃ i c d, st = .lowerProofResult i c d)
      : StepView s op s'
  | call (env : Env) (st : Step) (b : Bool) (s' : State X) (hst : NotResult st) (ht : Tidy s')
      (hw : s'.world.1 = (TokenManager.step { env with bridgeOk := b } s.world.1 st).1)
      (hc : (outstanding s' = outstanding s ∧ s'.log = s.log ∧ s'.world.1.pending = s.world.1.pending) ∨
        ∃ i ps, requested s.world.1 st = some i ∧ (TokenManager.step { env with bridgeOk := b } s.world.1 st).2 = none ∧
          s.world.1.pending i = none ∧ s'.world.1.pending = upd s.world.1.pending i (some ps) ∧
          outstanding s' = outstanding s ++ [.lower ⟨i, beVal ps, palletId⟩] ∧
          s'.log = s.log ++ [.accepted (.lower ⟨i, beVal ps, palletId⟩)])
      (ha : s'.active = s.active ∨ ∃ q a, s'.active = some a ∧ BridgeTx.Fresh (bridgeEnv p) (.lower q) a) :
      StepView s (.token env st) s'
  | bridge (op : BridgeTx.Step (World X)) (answered : List Request) (obs : List Obs) (new : List Request)
      (ht : Tidy (BridgeTx.step (bridgeEnv p) s op))
      (hp : BridgeTx.Advance (bridgeEnv p) s (BridgeTx.step (bridgeEnv p) s op) answered obs new) :
      StepView s (.bridge op) (BridgeTx.step (bridgeEnv p) s op)

theorem step_view (s : State X) (op : Op X) (hi : Inv s) (hn : ∀ env c i, op ≠ .token env (.rootExecuteLower c i)) :
    StepView p s op (step p s op) := by
  cases op with
  | token env st =>
    by_cases hres : ∃ i c d, st = .lowerProofResult i c d
    · obtain ⟨i, c, d, rfl⟩ := hres
      exact .idle _ _ rfl rfl rfl rfl hi.tidy (fun env st h => by injection h with _ h; exact ⟨i, c, d, h.symm⟩)
    · have hr : NotResult st := fun i c d e => hres ⟨i, c, d, e⟩
      have hroot : NotRootLower st := fun c i e => hn env c i (by rw [e])
      have hstep : step p s (.token env st) = tokenStep p s env st := by
        cases st <;> first | rfl | exact absurd rfl (hr _ _ _)
      rw [hstep]
      obtain ⟨b, h1, h2, h3, h4, _⟩ := tokenStep_view p s env st hi.tidy hroot hr hi.ok
      refine .call env st b _ hr h2 (by rw [h1]) ?_ h4
      rw [h1]; exact h3
  | bridge op =>
    by_cases h1 : ∃ i ps c, op = .lowerProof i ps c
    · obtain ⟨i, ps, c, rfl⟩ := h1
      exact .idle _ _ rfl rfl rfl rfl hi.tidy (fun env st h => by cases h)
    by_cases h2 : ∃ w a n b l, op = .external w a n b l
    · obtain ⟨w, a, n, b, l, rfl⟩ := h2
      exact .idle _ _ rfl rfl rfl rfl hi.tidy (fun env st h => by cases h)
    have hlo : ∀ i ps c, op ≠ .lowerProof i ps c := fun i ps c e => h1 ⟨i, ps, c, e⟩
    have hex : ∀ w a n b l, op ≠ .external w a n b l := fun w a n b l e => h2 ⟨w, a, n, b, l, e⟩
    have hstep : step p s (.bridge op) = BridgeTx.step (bridgeEnv p) s op := by
      cases op <;> first | rfl | exact absurd rfl (hlo _ _ _) | exact absurd rfl (hex _ _ _ _ _)
    rw [hstep]
    obtain ⟨ht, answered, obs, new, hp⟩ := BridgeTx.step_progress (bridgeEnv p) s op hex hlo hi.tidy
    exact .bridge op answered obs new ht hp

theorem toReady_ok {w : TokenManager.State} {i : Nat} {ps : List UInt8} (hp : w.pending i = some ps) (h : LowersOk w) :
    LowersOk (toReady w i ps) ∧ LowersOk (toFailed w i ps) := by
  have hi := h i
  unfold stageCount at hi
  rw [hp] at hi
  simp only [Option.isSome_some, Bool.toNat_true] at hi
  constructor
  · intro j
    unfold stageCount toReady
    by_cases e : j = i
    · subst e
      simp only [upd_same, Option.isSome_some, Option.isSome_none, Bool.toNat_true, Bool.toNat_false]
      exact ⟨by omega, fun h => by have := hi.2 h; omega⟩
    · simp only [upd_ne _ _ e]; exact h j
  · intro j
    unfold stageCount toFailed
    by_cases e : j = i
    · subst e
      simp only [upd_same, Option.isSome_some, Option.isSome_none, Bool.toNat_true, Bool.toNat_false]
      exact ⟨by omega, fun h => by have := hi.2 h; omega⟩
    · simp only [upd_ne _ _ e]; exact h j

/-- A property of the token manager preserved by both ways a pending lower moves on is preserved by a bridge step. -/
theorem bridge_world {s s' : State X} {answered : List Request} {obs : List Obs} {new : List Request} (hi : Inv s)
    (hp : BridgeTx.Advance (bridgeEnv p) s s' answered obs new) (P : TokenManager.State → Prop) (h0 : P s.world.1)
    (hr : ∀ v i ps, v.pending i = some ps →
      (∃ sigs, Obs.lowerResult i palletId (some (beVal ps, sigs)) ∈ obs) → P v → P (toReady v i ps))
    (hf : ∀ v i ps, v.pending i = some ps → P v → P (toFailed v i ps)) :
    Synced (outstanding s') s'.world.1 ∧ P s'.world.1 := by
  have hs : Synced (answered ++ outstanding s') s.world.1 := by
    rw [← hp.requests]; exact hi.synced.sends hp.sends
  have := deliver_all p P answered obs (outstanding s') s.world hp.answers hs h0
    (fun v q ps h1 _ _ h4 h5 => hr v q.lowerId ps h1 h4 h5) (fun v q ps h1 _ _ h5 => hf v q.lowerId ps h1 h5)
  rw [hp.world]; exact this

theorem inv_step (s : State X) (op : Op X) (hi : Inv s) (hn : ∀ env c i, op ≠ .token env (.rootExecuteLower c i))
    (hb : s.world.1.lowerNonce + 1 < pow32) :
    Inv (step p s op) ∧ s.world.1.lowerNonce ≤ (step p s op).world.1.lowerNonce ∧
      (step p s op).world.1.lowerNonce ≤ s.world.1.lowerNonce + 1 := by
  have hv := step_view p s op hi hn
  generalize step p s op = s' at hv
  cases hv with
  | idle op s' hw ho hl ha ht =>
    refine ⟨⟨ht, by rw [hw]; exact hi.ok, by rw [hw, ho]; exact hi.synced⟩, by rw [hw], by rw [hw]; omega⟩
  | call env st b s' hst ht hw hc =>
    obtain ⟨h1, h2, h3, _⟩ := TokenManager.stage_step { env with bridgeOk := b } s.world.1 st hb
      (fun c i e => hn env c i (by rw [e])) hi.ok
    refine ⟨⟨ht, by rw [hw]; exact h1, ?_⟩, by rw [hw]; exact h2, by rw [hw]; exact h3⟩
    rcases hc with ⟨c1, _, c3⟩ | ⟨i, ps, _, _, c3, c4, c5, _⟩
    · rw [c1]
      obtain ⟨g1, g2, g3, g4⟩ := hi.synced
      exact ⟨g1, g2, by rw [c3]; exact g3, by rw [c3]; exact g4⟩
    · rw [c5]; exact hi.synced.push c3 c4
  | bridge op answered obs new ht hp =>
    obtain ⟨h1, h2, h3⟩ := bridge_world p hi hp (fun w => LowersOk w ∧ w.lowerNonce = s.world.1.lowerNonce) ⟨hi.ok, rfl⟩
      (fun v i ps h1 _ h => ⟨(toReady_ok h1 h.1).1, h.2⟩) (fun v i ps h1 h => ⟨(toReady_ok h1 h.1).2, h.2⟩)
    exact ⟨⟨ht, h2, h1⟩, by rw [h3], by rw [h3]; omega⟩

theorem Regular.init {s0 : State X} {ops : List (Op X)} {op : Op X} (h : Regular s0 (ops ++ [op])) :
    Regular s0 ops ∧ (∀ env c i, op ≠ .token env (.rootExecuteLower c i)) := by
  obtain ⟨h1, h2⟩ := h
  simp only [List.length_append, List.length_singleton] at h2
  exact ⟨⟨fun env c i hm => h1 env c i (by simp [hm]), by omega⟩, fun env c i e => h1 env c i (by simp [e])⟩

theorem inv_run (s0 : State X) (hg : Genesis s0) (ops : List (Op X)) (hr : Regular s0 ops) :
    Inv (run p s0 ops) ∧ (run p s0 ops).world.1.lowerNonce ≤ s0.world.1.lowerNonce + ops.length := by
  induction ops using List.reverseRecOn with
  | nil => exact ⟨genesis_inv hg, by simp [run]⟩
  | append_singleton ops op ih =>
    obtain ⟨h1, h2⟩ := hr.init
    obtain ⟨i1, i2⟩ := ih h1
    have hlen := hr.2
    simp only [List.length_append, List.length_singleton] at hlen
    obtain ⟨g1, g2, g3⟩ := inv_step p _ op i1 h2 (by omega)
    rw [run_snoc]
    refine ⟨g1, ?_⟩
    simp only [List.length_append, List.length_singleton]; omega

/-- **C100.** At every moment of every history: while a lower's proof is pending, the bridge holds exactly one unanswered
request for it, made by the token manager and carrying exactly the pending parameters; when it is not pending, the bridge
holds none. So no pending lower waits for an answer that will never come, and no answer comes for a lower nobody waits
for. -/
theorem C100_pending_iff_requested (s0 : State X) (hg : Genesis s0) (ops : List (Op X)) (hr : Regular s0 ops) (i : Nat) :
    let s := run p s0 ops
    requestsFor s i = match s.world.1.pending i with
      | some ps => [.lower ⟨i, beVal ps, palletId⟩]
      | none => [] := by
  intro s
  have hsy := (inv_run p s0 hg ops hr).1.synced
  change Synced (outstanding s) s.world.1 at hsy
  clear_value s
  have key : ∀ l : List Request, Synced l s.world.1 → l.filter (asksFor i) = match s.world.1.pending i with
      | some ps => [.lower ⟨i, beVal ps, palletId⟩]
      | none => [] := by
    intro l hl
    have hmem : ∀ r ∈ l.filter (asksFor i), ∃ ps, s.world.1.pending i = some ps ∧ r = .lower ⟨i, beVal ps, palletId⟩ := by
      intro r hr
      obtain ⟨hr1, hr2⟩ := List.mem_filter.1 hr
      cases r with
      | send q => cases hr2
      | lower q =>
        have hid : q.lowerId = i := by simpa [asksFor] using hr2
        have hq : q ∈ lowers l := by
          unfold lowers; exact List.mem_filterMap.2 ⟨_, hr1, rfl⟩
        obtain ⟨ps, e1, e2⟩ := hl.params q hq
        have e3 := hl.own q hq
        refine ⟨ps, by rw [← hid]; exact e1, ?_⟩
        cases q; simp_all
    have hlen : (l.filter (asksFor i)).length ≤ 1 := by
      have h2 := hl.ids
      clear hmem hl hsy
      induction l with
      | nil => simp
      | cons r l ih =>
        cases r with
        | send q =>
          have e : lowers (.send q :: l) = lowers l := by simp [lowers]
          rw [e] at h2
          simpa [asksFor] using ih h2
        | lower q =>
          have e : lowers (.lower q :: l) = q :: lowers l := by simp [lowers]
          rw [e, List.map_cons, List.nodup_cons] at h2
          by_cases hq : q.lowerId = i
          · have : l.filter (asksFor i) = [] := by
              rw [List.filter_eq_nil_iff]
              intro r hr
              cases r with
              | send q' => simp [asksFor]
              | lower q' =>
                have : q'.lowerId ∈ (lowers l).map LowerReq.lowerId :=
                  List.mem_map_of_mem (by unfold lowers; exact List.mem_filterMap.2 ⟨_, hr, rfl⟩)
                simp only [asksFor, beq_iff_eq]
                intro e
                exact h2.1 (by rw [hq, ← e]; exact this)
            rw [List.filter_cons]
            split <;> simp [this]
          · rw [List.filter_cons, if_neg (by simp [asksFor, hq])]
            exact ih h2.2
    cases hp : s.world.1.pending i with
    | none =>
      refine List.eq_nil_iff_forall_not_mem.2 (fun r hr => ?_)
      obtain ⟨ps, e, _⟩ := hmem r hr
      rw [hp] at e; cases e
    | some ps =>
      have hm := hl.asked i ps hp
      obtain ⟨q, hq, hqi⟩ := List.mem_map.1 hm
      have hql : .lower q ∈ l := by
        unfold lowers at hq
        obtain ⟨r, hr, e⟩ := List.mem_filterMap.1 hq
        cases r with
        | send _ => cases e
        | lower q' => simp only [Option.some.injEq] at e; rw [← e]; exact hr
      have hin : Request.lower q ∈ l.filter (asksFor i) := List.mem_filter.2 ⟨hql, by simp [asksFor, hqi]⟩
      match hf : l.filter (asksFor i), hlen, hin with
      | [], _, h => cases h
      | [r], _, _ =>
        obtain ⟨ps', e1, e2⟩ := hmem r (by rw [hf]; simp)
        rw [hp] at e1; injection e1 with e1; subst e1
        rw [e2]
      | _ :: _ :: _, h, _ => simp at h
  exact key _ hsy

/-- One step keeps a held lower held, with the same parameters, unless it is an Ethereum event for that lower. -/
theorem held_step (s : State X) (op : Op X) (hi : Inv s) (hn : ∀ env c i, op ≠ .token env (.rootExecuteLower c i))
    (i : Nat) (ps : List UInt8) (h : Held s.world.1 i ps)
    (h1 : ∀ env, op ≠ .token env (.event (.lowerClaimed i)))
    (h2 : ∀ env t w a, op ≠ .token env (.event (.lowerReverted t w a i))) :
    Held (step p s op).world.1 i ps := by
  have hv := step_view p s op hi hn
  generalize step p s op = s' at hv
  cases hv with
  | idle op s' hw => rw [hw]; exact h
  | bridge op answered obs new ht hp =>
    refine (bridge_world p hi hp (fun w => LowersOk w ∧ Held w i ps) ⟨hi.ok, h⟩ ?_ ?_).2.2
    · rintro v j qs hj _ ⟨hok, hh⟩
      refine ⟨(toReady_ok hj hok).1, ?_⟩
      unfold Held toReady
      by_cases e : i = j
      · subst e
        simp only [upd_same]
        rcases hh with hh | hh | hh
        · rw [hj] at hh; injection hh with hh; subst hh; simp
        · have := (hok i).1; unfold stageCount at this; rw [hj, hh] at this; simp at this <;> omega
        · have := (hok i).1; unfold stageCount at this; rw [hj, hh] at this; simp at this <;> omega
      · simp only [upd_ne _ _ e]; exact hh
    · rintro v j qs hj ⟨hok, hh⟩
      refine ⟨(toReady_ok hj hok).2, ?_⟩
      unfold Held toFailed
      by_cases e : i = j
      · subst e
        simp only [upd_same]
        rcases hh with hh | hh | hh
        · rw [hj] at hh; injection hh with hh; subst hh; simp
        · have := (hok i).1; unfold stageCount at this; rw [hj, hh] at this; simp at this <;> omega
        · have := (hok i).1; unfold stageCount at this; rw [hj, hh] at this; simp at this <;> omega
      · simp only [upd_ne _ _ e]; exact hh
  | call env st b s' hst ht hw =>
    rw [hw]
    have hok := (hi.ok i).1
    have hv := TokenManager.step_view { env with bridgeOk := b } s.world.1 st
    generalize TokenManager.step { env with bridgeOk := b } s.world.1 st = r at hv
    generalize s.world.1 = w at h hok hv
    cases hv with
    | regenReady q j qs hd hr =>
      unfold Held
      by_cases e : i = j
      · subst e
        simp only [upd_same]
        unfold stageCount at hok
        rcases h with h | h | h
        · rw [h, hr] at hok; simp at hok <;> omega
        · rw [hr] at h; injection h with h; subst h; simp
        · rw [h, hr] at hok; simp at hok <;> omega
      · simp only [upd_ne _ _ e]; exact h
    | regenFailed q j qs hd hr hf =>
      unfold Held
      by_cases e : i = j
      · subst e
        simp only [upd_same]
        unfold stageCount at hok
        rcases h with h | h | h
        · rw [h, hf] at hok; simp at hok <;> omega
        · rw [hr] at h; cases h
        · rw [hf] at h; injection h with h; subst h; simp
      · simp only [upd_ne _ _ e]; exact h
    | rootLower c j => exact absurd rfl (hn env c j)
    | schedLower c j bal' avt' hc =>
      unfold Held
      by_cases e : i = j
      · subst e
        unfold stageCount at hok
        rcases h with h | h | h <;> rw [h, hc] at hok <;> simp at hok <;> omega
      · simp only [upd_ne _ _ e]; exact h
    | claim j qs hk hr =>
      have e : i ≠ j := fun e => h1 env (by rw [e])
      unfold Held; simp only [upd_ne _ _ e]; exact h
    | revert t v a j qs bal' avt' hk hr =>
      have e : i ≠ j := fun e => h2 env t v a (by rw [e])
      unfold Held; simp only [upd_ne _ _ e]; exact h
    | revertFail t v a j qs err hk hr =>
      have e : i ≠ j := fun e => h2 env t v a (by rw [e])
      unfold Held; simp only [upd_ne _ _ e]; exact h
    | proofReady => exact absurd rfl (hst _ _ _)
    | proofTooLong => exact absurd rfl (hst _ _ _)
    | proofFailed => exact absurd rfl (hst _ _ _)
    | _ => exact h

/-- **C100.** A lower never gets lost: once it is held (pending, ready or failed), it stays held with the same parameters,
whatever happens in the bridge (results, failures, removals by the administrator, a changing author set), until an
Ethereum event says that this very lower was claimed or reverted. In particular a finished proof is never too long for the
token manager to store. -/
theorem C100_never_lost (s0 : State X) (hg : Genesis s0) (before after : List (Op X)) (hr : Regular s0 (before ++ after))
    (i : Nat) (ps : List UInt8) (h : Held (run p s0 before).world.1 i ps) :
    Held (run p s0 (before ++ after)).world.1 i ps ∨
    (∃ env, Op.token env (.event (.lowerClaimed i)) ∈ after) ∨
    (∃ env t w a, Op.token env (.event (.lowerReverted t w a i)) ∈ after) := by
  induction after using List.reverseRecOn with
  | nil => left; simpa using h
  | append_singleton after op ih =>
    rw [← List.append_assoc] at hr ⊢
    obtain ⟨hr1, hr2⟩ := hr.init
    rcases ih hr1 with ih | ⟨env, ih⟩ | ⟨env, t, w, a, ih⟩
    · by_cases c1 : ∃ env, op = .token env (.event (.lowerClaimed i))
      · obtain ⟨env, rfl⟩ := c1
        exact .inr (.inl ⟨env, by simp⟩)
      by_cases c2 : ∃ env t w a, op = .token env (.event (.lowerReverted t w a i))
      · obtain ⟨env, t, w, a, rfl⟩ := c2
        exact .inr (.inr ⟨env, t, w, a, by simp⟩)
      left
      rw [run_snoc]
      exact held_step p _ op (inv_run p s0 hg _ hr1).1 hr2 i ps ih (fun env e => c1 ⟨env, e⟩)
        (fun env t w a e => c2 ⟨env, t, w, a, e⟩)
    · exact .inr (.inl ⟨env, by simp [ih]⟩)
    · exact .inr (.inr ⟨env, t, w, a, by simp [ih]⟩)

end Verif.LowerFlow
