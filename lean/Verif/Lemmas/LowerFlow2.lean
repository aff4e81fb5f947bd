import Verif.Lemmas.LowerFlow

/-! # Pending lowers and outstanding requests stay in step -/

namespace Verif.LowerFlow
open Verif.TokenManager (Env Step LowersOk stageCount NotRootLower)
open Verif.BridgeTx (Request LowerReq Obs outstanding Answers Tidy notify)
open Verif.Lower

/-- The lower requests among a list of requests. -/
def lowers (l : List Request) : List LowerReq :=
  l.filterMap (fun | .lower q => some q | .send _ => none)

theorem lowers_append (a b : List Request) : lowers (a ++ b) = lowers a ++ lowers b := by simp [lowers]

/-- The outstanding lower requests are exactly the pending lowers, once each, with the pending parameters. -/
structure Synced (l : List Request) (w : TokenManager.State) : Prop where
  own : ∀ q ∈ lowers l, q.callerId = palletId
  ids : ((lowers l).map LowerReq.lowerId).Nodup
  params : ∀ q ∈ lowers l, ∃ ps, w.pending q.lowerId = some ps ∧ q.params = beVal ps
  asked : ∀ i ps, w.pending i = some ps → i ∈ (lowers l).map LowerReq.lowerId

/-- The pending lower `i` becomes ready to claim. -/
def toReady (w : TokenManager.State) (i : Nat) (ps : List UInt8) : TokenManager.State :=
  { w with pending := upd w.pending i none, ready := upd w.ready i (some ps) }

/-- The proof of the pending lower `i` failed. -/
def toFailed (w : TokenManager.State) (i : Nat) (ps : List UInt8) : TokenManager.State :=
  { w with pending := upd w.pending i none, failed := upd w.failed i (some ps) }

variable {X : Type} (p : Params X)

theorem proofLength_le (sigs : List Nat) (h : sigs.length ≤ BridgeTx.confirmationsLimit) :
    proofLength sigs ≤ TokenManager.lowerDataLimit := by
  unfold BridgeTx.confirmationsLimit at h
  unfold proofLength TokenManager.lowerDataLimit
  omega

/-- The answer to the first outstanding request, when it is a lower: the token manager moves exactly that lower on. -/
theorem deliver_lower (w : World X) (q : LowerReq) (l : List Request) (o : Obs) (h : Synced (.lower q :: l) w.1)
    (ho : Answers (.lower q) o) :
    ∃ ps, w.1.pending q.lowerId = some ps ∧ q.params = beVal ps ∧
      ((∃ sigs, o = .lowerResult q.lowerId palletId (some (beVal ps, sigs)) ∧
          notify (bridgeEnv p) w o = (toReady w.1 q.lowerId ps, w.2)) ∨
       (o = .lowerResult q.lowerId palletId none ∧ notify (bridgeEnv p) w o = (toFailed w.1 q.lowerId ps, w.2))) := by
  have hm : q ∈ lowers (.lower q :: l) := by simp [lowers]
  obtain ⟨ps, h1, h2⟩ := h.params q hm
  have hc := h.own q hm
  refine ⟨ps, h1, h2, ?_⟩
  obtain ⟨pr, rfl, hpr⟩ := ho
  rw [hc]
  cases pr with
  | none =>
    right
    refine ⟨rfl, ?_⟩
    simp only [notify, bridgeEnv, TokenManager.processLowerProofResult, h1, beq_self_eq_true, Bool.not_true,
      Bool.false_eq_true, if_false, Option.map_none, toFailed]
  | some x =>
    obtain ⟨a, sigs⟩ := x
    obtain ⟨e1, e2⟩ := hpr a sigs rfl
    left
    refine ⟨sigs, by rw [e1, h2], ?_⟩
    simp only [notify, bridgeEnv, TokenManager.processLowerProofResult, h1, beq_self_eq_true, Bool.not_true,
      Bool.false_eq_true, if_false, Option.map_some, toReady, if_pos (proofLength_le sigs e2)]

/-- The answer to a send request leaves the token manager alone. -/
theorem deliver_send (w : World X) (q : BridgeTx.SendReq) (o : Obs) (ho : Answers (.send q) o) :
    (notify (bridgeEnv p) w o).1 = w.1 := by
  obtain ⟨ok, rfl⟩ := ho
  rfl

theorem Synced.pop {q : LowerReq} {l : List Request} {w w' : TokenManager.State} (h : Synced (.lower q :: l) w)
    (hp : w'.pending = upd w.pending q.lowerId none) : Synced l w' := by
  have hl : lowers (.lower q :: l) = q :: lowers l := by simp [lowers]
  obtain ⟨h1, h2, h3, h4⟩ := h
  rw [hl] at h1 h2 h3 h4
  rw [List.map_cons, List.nodup_cons] at h2
  refine ⟨fun r hr => h1 r (by simp [hr]), h2.2, fun r hr => ?_, fun i ps hi => ?_⟩
  · have hne : r.lowerId ≠ q.lowerId := fun e => h2.1 (e ▸ List.mem_map_of_mem hr)
    obtain ⟨ps, e1, e2⟩ := h3 r (by simp [hr])
    exact ⟨ps, by rw [hp, upd_ne _ _ hne]; exact e1, e2⟩
  · rw [hp, upd_apply] at hi
    by_cases e : i = q.lowerId
    · rw [if_pos e] at hi; cases hi
    · rw [if_neg e] at hi
      have := h4 i ps hi
      rw [List.map_cons, List.mem_cons] at this
      rcases this with h | h
      · exact absurd h e
      · exact h

theorem Synced.pop_send {q : BridgeTx.SendReq} {l : List Request} {w : TokenManager.State} (h : Synced (.send q :: l) w) :
    Synced l w := by
  have hl : lowers (.send q :: l) = lowers l := by simp [lowers]
  obtain ⟨h1, h2, h3, h4⟩ := h
  rw [hl] at h1 h2 h3 h4
  exact ⟨h1, h2, h3, h4⟩

theorem Synced.sends {l new : List Request} {w : TokenManager.State} (hn : ∀ r ∈ new, ∃ q, r = .send q) (h : Synced l w) :
    Synced (l ++ new) w := by
  have hl : lowers (l ++ new) = lowers l := by
    rw [lowers_append]
    have : lowers new = [] := by
      unfold lowers
      rw [List.filterMap_eq_nil_iff]
      intro r hr
      obtain ⟨q, rfl⟩ := hn r hr
      rfl
    rw [this, List.append_nil]
  obtain ⟨h1, h2, h3, h4⟩ := h
  exact ⟨by rw [hl]; exact h1, by rw [hl]; exact h2, by rw [hl]; exact h3, by rw [hl]; exact h4⟩

/-- A chain of answers: an invariant of the two ways a pending lower can move on holds afterwards, and the tables stay in
step. -/
theorem deliver_all (P : TokenManager.State → Prop) : ∀ (answered : List Request) (obs : List Obs) (l : List Request)
    (w : World X), List.Forall₂ Answers answered obs → Synced (answered ++ l) w.1 → P w.1 →
    (∀ v q ps, v.pending q.lowerId = some ps → .lower q ∈ answered → q.params = beVal ps →
      (∃ sigs, Obs.lowerResult q.lowerId palletId (some (beVal ps, sigs)) ∈ obs) → P v → P (toReady v q.lowerId ps)) →
    (∀ v q ps, v.pending q.lowerId = some ps → .lower q ∈ answered → q.params = beVal ps →
      P v → P (toFailed v q.lowerId ps)) →
    Synced l (obs.foldl (notify (bridgeEnv p)) w).1 ∧ P (obs.foldl (notify (bridgeEnv p)) w).1 := by
  intro answered
  induction answered with
  | nil =>
    intro obs l w hf hs hP _ _
    cases hf
    exact ⟨hs, hP⟩
  | cons r answered ih =>
    intro obs l w hf hs hP hr hfl
    cases hf with
    | cons ho hrest =>
      rename_i o obs
      rw [List.foldl_cons]
      cases r with
      | send q =>
        have e := deliver_send p w q o ho
        refine ih obs l _ hrest (by rw [e]; exact hs.pop_send) (by rw [e]; exact hP) ?_ ?_
        · intro v q ps h1 h2 h3 ⟨sigs, h4⟩ h5
          exact hr v q ps h1 (by simp [h2]) h3 ⟨sigs, by simp [h4]⟩ h5
        · intro v q ps h1 h2 h3 h5
          exact hfl v q ps h1 (by simp [h2]) h3 h5
      | lower q =>
        obtain ⟨ps, h1, h2, h3⟩ := deliver_lower p w q (answered ++ l) o hs ho
        have hps : Synced (answered ++ l) (notify (bridgeEnv p) w o).1 := by
          refine hs.pop ?_
          rcases h3 with ⟨_, _, e⟩ | ⟨_, e⟩ <;> rw [e] <;> rfl
        have hPn : P (notify (bridgeEnv p) w o).1 := by
          rcases h3 with ⟨sigs, e0, e⟩ | ⟨_, e⟩
          · rw [e]; exact hr w.1 q ps h1 (by simp) h2 ⟨sigs, by simp [e0]⟩ hP
          · rw [e]; exact hfl w.1 q ps h1 (by simp) h2 hP
        refine ih obs l _ hrest hps hPn ?_ ?_
        · intro v q ps h1 h2 h3 ⟨sigs, h4⟩ h5
          exact hr v q ps h1 (by simp [h2]) h3 ⟨sigs, by simp [h4]⟩ h5
        · intro v q ps h1 h2 h3 h5
          exact hfl v q ps h1 (by simp [h2]) h3 h5

/-! ### Calls of the token manager -/

/-- The step is not a proof result (those come from the bridge). -/
def NotResult (st : Step) : Prop := ∀ i c d, st ≠ .lowerProofResult i c d

theorem settleLower_down (env : Env) (w : TokenManager.State) (t : Addr) (f : Acct) (a : Nat) (t1 : Addr) (i : Nat)
    (hb : env.bridgeOk = false) : (TokenManager.settleLower env w t f a t1 i).2 ≠ none := by
  unfold TokenManager.settleLower
  dsimp only
  split
  · simp
  · rw [hb]; simp

theorem executeLower_down (env : Env) (w : TokenManager.State) (c : TokenManager.LowerCall) (i : Nat)
    (hb : env.bridgeOk = false) : (TokenManager.executeLower env w c i).2 ≠ none := by
  unfold TokenManager.executeLower
  split
  · simp
  · exact settleLower_down env w _ _ _ _ _ hb

/-- If the bridge refuses, the call that asked fails. -/
theorem refused_fails (env : Env) (w : TokenManager.State) (st : Step) (i : Nat) (hr : requested w st = some i)
    (hb : env.bridgeOk = false) : (TokenManager.step env w st).2 ≠ none := by
  cases st with
  | dispatchScheduled j =>
    simp only [requested] at hr
    split at hr
    · rename_i hsome
      simp only [TokenManager.step, TokenManager.dispatchScheduled]
      split
      · rename_i h; rw [h] at hsome; cases hsome
      · rw [TokenManager.transactional_err]
        exact executeLower_down env _ _ _ hb
    · cases hr
  | rootExecuteLower c j =>
    simp only [TokenManager.step, TokenManager.transactional_err]
    exact executeLower_down env w c j hb
  | regenerateLowerProof q j =>
    simp only [TokenManager.step, TokenManager.transactional_err, TokenManager.regenerateLowerProof]
    split
    · simp
    · split
      · simp [TokenManager.regenerateProof, hb]
      · split
        · simp [TokenManager.regenerateProof, hb]
        · simp
  | _ => simp [requested] at hr

/-- A call that makes no request, or fails, leaves the pending lowers alone. -/
theorem pending_same (env : Env) (w : TokenManager.State) (st : Step) (hst : NotResult st)
    (h : requested w st = none ∨ (TokenManager.step env w st).2 ≠ none) :
    (TokenManager.step env w st).1.pending = w.pending := by
  have hv := TokenManager.step_view env w st
  generalize TokenManager.step env w st = r at hv h
  cases hv with
  | regenReady q i ps => rcases h with h | h <;> simp [requested] at h
  | regenFailed q i ps => rcases h with h | h <;> simp [requested] at h
  | rootLower c i => rcases h with h | h <;> simp [requested] at h
  | schedLower c i bal' avt' hc => rcases h with h | h <;> simp [requested, hc] at h
  | proofReady i len ps hp => exact absurd rfl (hst _ _ _)
  | proofTooLong i len ps hp => exact absurd rfl (hst _ _ _)
  | proofFailed i ps hp => exact absurd rfl (hst _ _ _)
  | _ => rfl

/-- A call that makes a request and succeeds: the lower was scheduled, ready or failed, and is now pending. -/
theorem pending_new (env : Env) (w : TokenManager.State) (st : Step) (i : Nat) (hn : NotRootLower st)
    (hr : requested w st = some i) (hok : (TokenManager.step env w st).2 = none) :
    ∃ ps, (TokenManager.step env w st).1.pending = upd w.pending i (some ps) ∧
      ((w.scheduled i).isSome ∨ (w.ready i).isSome ∨ (w.failed i).isSome) := by
  have hv := TokenManager.step_view env w st
  generalize TokenManager.step env w st = r at hv hok
  cases hv with
  | fail st e => cases hok
  | schedFail => cases hok
  | regenReady q j ps hd hr' => simp only [requested, Option.some.injEq] at hr; subst hr; exact ⟨ps, rfl, by simp [hr']⟩
  | regenFailed q j ps hd hr' hf => simp only [requested, Option.some.injEq] at hr; subst hr; exact ⟨ps, rfl, by simp [hf]⟩
  | rootLower c j => exact absurd rfl (hn c j)
  | schedLower c j bal' avt' hc =>
    simp only [requested, hc, Option.isSome_some, if_true, Option.some.injEq] at hr; subst hr
    exact ⟨_, rfl, by simp [hc]⟩
  | schedNone j hs => simp [requested, hs] at hr
  | transfer st p f d t a bal' avt' hst => rcases hst with rfl | ⟨_, rfl⟩ <;> simp [requested] at hr
  | signedLower st p f t a t1 hst => rcases hst with rfl | ⟨_, rfl⟩ <;> simp [requested] at hr
  | _ => simp [requested] at hr

theorem not_pending {w : TokenManager.State} {i : Nat} (h : LowersOk w)
    (hs : (w.scheduled i).isSome ∨ (w.ready i).isSome ∨ (w.failed i).isSome) : w.pending i = none := by
  have := (h i).1
  unfold stageCount at this
  cases hp : w.pending i with
  | none => rfl
  | some ps =>
    rw [hp] at this
    rcases hs with h | h | h <;> rw [h] at this <;> simp at this <;> omega

theorem Synced.push {l : List Request} {w w' : TokenManager.State} {i : Nat} {ps : List UInt8} (h : Synced l w)
    (hi : w.pending i = none) (hp : w'.pending = upd w.pending i (some ps)) :
    Synced (l ++ [.lower ⟨i, beVal ps, palletId⟩]) w' := by
  have hl : lowers (l ++ [.lower ⟨i, beVal ps, palletId⟩]) = lowers l ++ [⟨i, beVal ps, palletId⟩] := by
    rw [lowers_append]; rfl
  obtain ⟨h1, h2, h3, h4⟩ := h
  have hni : i ∉ (lowers l).map LowerReq.lowerId := by
    intro hm
    obtain ⟨q, hq, rfl⟩ := List.mem_map.1 hm
    obtain ⟨ps', e, _⟩ := h3 q hq
    rw [hi] at e; cases e
  refine ⟨?_, ?_, ?_, ?_⟩
  · rw [hl]; intro q hq
    rcases List.mem_append.1 hq with hq | hq
    · exact h1 q hq
    · simp only [List.mem_singleton] at hq; rw [hq]
  · rw [hl, List.map_append, List.nodup_append]
    refine ⟨h2, by simp, fun a ha b hb e => ?_⟩
    simp only [List.map_cons, List.map_nil, List.mem_singleton] at hb
    subst e; subst hb
    exact hni ha
  · rw [hl]; intro q hq
    rcases List.mem_append.1 hq with hq | hq
    · obtain ⟨ps', e1, e2⟩ := h3 q hq
      have hne : q.lowerId ≠ i := fun e => hni (e ▸ List.mem_map_of_mem hq)
      exact ⟨ps', by rw [hp, upd_ne _ _ hne]; exact e1, e2⟩
    · simp only [List.mem_singleton] at hq; subst hq
      exact ⟨ps, by rw [hp]; exact upd_same _ _ _, rfl⟩
  · rw [hl]; intro j ps' hj
    rw [hp, upd_apply] at hj
    rw [List.map_append, List.mem_append]
    by_cases e : j = i
    · right; simp [e]
    · rw [if_neg e] at hj; exact .inl (h4 j ps' hj)

/-- What a call of the token manager does: a step of the token manager in which `bridgeOk` is what the bridge answers, and
either no request, or one accepted request for the lower that just became pending. -/
theorem tokenStep_view (s : State X) (env : Env) (st : Step) (ht : Tidy s) (hn : NotRootLower st) (hres : NotResult st)
    (hok : LowersOk s.world.1) :
    ∃ b, let r := TokenManager.step { env with bridgeOk := b } s.world.1 st
      (tokenStep p s env st).world = (r.1, s.world.2) ∧ Tidy (tokenStep p s env st) ∧
      ((outstanding (tokenStep p s env st) = outstanding s ∧ (tokenStep p s env st).log = s.log ∧
          r.1.pending = s.world.1.pending) ∨
        ∃ i ps, requested s.world.1 st = some i ∧ r.2 = none ∧ s.world.1.pending i = none ∧
          r.1.pending = upd s.world.1.pending i (some ps) ∧
          outstanding (tokenStep p s env st) = outstanding s ++ [.lower ⟨i, beVal ps, palletId⟩] ∧
          (tokenStep p s env st).log = s.log ++ [.accepted (.lower ⟨i, beVal ps, palletId⟩)]) ∧
      ((tokenStep p s env st).active = s.active ∨
        ∃ q a, (tokenStep p s env st).active = some a ∧ BridgeTx.Fresh (bridgeEnv p) (.lower q) a) ∧
      (tokenStep p s env st).avn = s.avn := by
  unfold tokenStep
  dsimp only
  cases hr : requested s.world.1 st with
  | none =>
    dsimp only
    exact ⟨true, rfl, ht, .inl ⟨rfl, rfl, pending_same _ _ _ hres (.inl hr)⟩, .inl rfl, rfl⟩
  | some i =>
    dsimp only
    cases he : (TokenManager.step { env with bridgeOk := true } s.world.1 st).2 with
    | some e =>
      dsimp only
      exact ⟨true, rfl, ht, .inl ⟨rfl, rfl, pending_same _ _ _ hres (.inr (by rw [he]; simp))⟩, .inl rfl, rfl⟩
    | none =>
      obtain ⟨ps, h1, h2⟩ := pending_new _ _ _ i hn hr he
      have hpi : (TokenManager.step { env with bridgeOk := true } s.world.1 st).1.pending i = some ps := by
        rw [h1]; exact upd_same _ _ _
      rw [hpi]
      dsimp only
      have ht1 : Tidy ({ s with world := ((TokenManager.step { env with bridgeOk := true } s.world.1 st).1, s.world.2) } :
          State X) := ht
      rcases BridgeTx.lowerProof_progress (bridgeEnv p) _ i (beVal ps) palletId ht1 with ⟨e, hg⟩ | ⟨hg, g1, g2, g3, g4, g5, g6⟩
      · rw [hg]
        dsimp only
        exact ⟨false, rfl, ht, .inl ⟨rfl, rfl, pending_same _ _ _ hres (.inr (refused_fails _ _ _ i hr rfl))⟩, .inl rfl, rfl⟩
      · rw [hg]
        dsimp only
        refine ⟨true, g3, g1, .inr ⟨i, ps, rfl, he, not_pending hok h2, h1, g2, g4⟩, ?_, g6⟩
        rcases g5 with h | ⟨a, h, hf⟩
        · exact .inl h
        · exact .inr ⟨_, a, h, hf⟩

end Verif.LowerFlow
