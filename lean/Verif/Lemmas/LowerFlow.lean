import Verif.Model.LowerFlow
import Verif.Props.TokenManagerLower
import Verif.Props.EthBridgeTx

/-! # The bridge and the token manager wired together: what a step does to both -/

namespace Verif.BridgeTx

variable {W : Type} (env : Env W)

/-- Effect of one logged notification on the rest of the runtime. -/
def notify (w : W) : Obs → W
  | .accepted _ => w
  | .result id c ok => (env.onResult w id c ok).1
  | .lowerResult id c pr => (env.onLower w id c pr).1

/-- The rest of the runtime was told exactly what was newly logged, in that order; no lower request was accepted. -/
def WorldTold (s s' : State W) : Prop :=
  ∃ new, s'.log = s.log ++ new ∧ s'.world = new.foldl (notify env) s.world ∧ ∀ r, Obs.accepted r ∈ new → ∃ q, r = .send q

theorem WorldTold.of_eq {s s' : State W} (h1 : s'.log = s.log) (h2 : s'.world = s.world) : WorldTold env s s' :=
  ⟨[], by simp [h1], by simp [h2], by simp⟩

theorem WorldTold.trans {a b c : State W} (h1 : WorldTold env a b) (h2 : WorldTold env b c) : WorldTold env a c := by
  obtain ⟨n1, l1, w1, a1⟩ := h1
  obtain ⟨n2, l2, w2, a2⟩ := h2
  refine ⟨n1 ++ n2, by rw [l2, l1, List.append_assoc], by rw [w2, w1, List.foldl_append], fun r hr => ?_⟩
  rcases List.mem_append.1 hr with h | h
  · exact a1 r h
  · exact a2 r h

theorem notifyFailed_told (s : State W) (r : Request) : WorldTold env s (notifyFailed env s r) := by
  cases r with
  | send r => exact ⟨[.result r.txId r.callerId false], rfl, rfl, by simp⟩
  | lower r => exact ⟨[.lowerResult r.lowerId r.callerId none], rfl, rfl, by simp⟩

theorem setUp_told {s s' : State W} {r : Request} (h : setUp env s r = .ok s') : WorldTold env s s' := by
  obtain ⟨a, avn, _, rfl⟩ := setUp_ok env h
  exact .of_eq env rfl rfl

theorem processQueue_told (q : List Request) : ∀ s : State W, WorldTold env s (processQueue env s q) := by
  induction q with
  | nil => intro s; exact .of_eq env rfl rfl
  | cons r rest ih =>
    intro s
    unfold processQueue
    cases hs : setUp env { s with queue := rest } r with
    | ok s' =>
      obtain ⟨a, avn, _, rfl⟩ := setUp_ok env hs
      exact .of_eq env rfl rfl
    | error e =>
      exact (notifyFailed_told env s r).trans env (ih _)

theorem processNext_told (s : State W) : WorldTold env s (processNext env s) := by
  have := processQueue_told env s.queue { s with active := none }
  exact (WorldTold.of_eq env (s := s) (s' := { s with active := none }) rfl rfl).trans env this

theorem enqueue_told {s s' : State W} {r : Request} (h : enqueueOrSetUp env s r = .ok s') :
    s'.log = s.log ∧ s'.world = s.world := by
  unfold enqueueOrSetUp at h
  split at h
  · unfold queueRequest at h
    split at h
    · injection h with h; subst h; exact ⟨rfl, rfl⟩
    · cases h
  · obtain ⟨a, avn, _, rfl⟩ := setUp_ok env h
    exact ⟨rfl, rfl⟩

/-- In every step but `external` (and requests for lower proofs), the rest of the runtime changes only by the notifications logged. -/
theorem step_told (s : State W) (op : Step W) (hop : ∀ w a n b l, op ≠ .external w a n b l)
    (hlo : ∀ i ps c, op ≠ .lowerProof i ps c) :
    WorldTold env s (step env s op) := by
  have hid : WorldTold env s s := .of_eq env rfl rfl
  cases op with
  | publish name params caller rb =>
    have key : WorldTold env s (publish env s name params caller).1 := by
      unfold publish
      split
      · exact hid
      · split
        · exact hid
        · dsimp only
          have h1 : WorldTold env s { s with nextTxId := wrapInc32 s.nextTxId } := .of_eq env rfl rfl
          split
          · exact h1
          · split
            · exact h1
            · split
              · exact h1
              · split
                · rename_i s2 h2
                  obtain ⟨e1, e2⟩ := enqueue_told env h2
                  refine ⟨[.accepted (.send ⟨s.nextTxId, name, params, caller⟩)], ?_, e2, by simp⟩
                  show s2.log ++ _ = _
                  rw [e1]
                · exact h1
    simp only [step]
    split
    · exact key
    · split
      · exact hid
      · exact key
  | lowerProof id params caller => exact absurd rfl (hlo _ _ _)
  | confirm id sig a =>
    simp only [step]
    split
    · cases hc : addConfirmation env s id sig a with
      | error e => exact hid
      | ok s' =>
        simp only [commit]
        unfold addConfirmation at hc
        split at hc
        · injection hc with hc; subst hc; exact hid
        · split at hc
          · injection hc with hc; subst hc; exact hid
          · split at hc
            · injection hc with hc; subst hc; exact hid
            · split at hc
              · injection hc with hc; subst hc; exact hid
              · split at hc
                · cases hc
                · split at hc
                  · cases hc
                  · split at hc
                    · cases hc
                    · dsimp only at hc
                      split at hc
                      · split at hc
                        · injection hc with hc; subst hc
                          refine WorldTold.trans env ?_ (processNext_told env _)
                          exact ⟨[_], rfl, rfl, by simp⟩
                        · injection hc with hc; subst hc; exact .of_eq env rfl rfl
                      · injection hc with hc; subst hc; exact .of_eq env rfl rfl
    · exact hid
  | ethTxHash id h a =>
    simp only [step]
    split
    · cases hc : addEthTxHash s id h a with
      | error e => exact hid
      | ok s' =>
        simp only [commit]
        unfold addEthTxHash at hc
        split at hc
        · injection hc with hc; subst hc; exact hid
        · split at hc
          · injection hc with hc; subst hc; exact hid
          · split at hc
            · injection hc with hc; subst hc; exact hid
            · split at hc
              · cases hc
              · split at hc
                · cases hc
                · injection hc with hc; subst hc; exact .of_eq env rfl rfl
    · exact hid
  | corroborate id ok hv a rep =>
    simp only [step]
    split
    · cases hc : addCorroboration env s id ok hv a rep with
      | error e => exact hid
      | ok s' =>
        simp only [commit]
        unfold addCorroboration at hc
        split at hc
        · injection hc with hc; subst hc; exact hid
        · split at hc
          · injection hc with hc; subst hc; exact hid
          · split at hc
            · injection hc with hc; subst hc; exact hid
            · split at hc
              · cases hc
              · split at hc
                · cases hc
                · split at hc
                  · injection hc with hc; subst hc; exact hid
                  · rename_i d _ _ _ _
                    by_cases c5 : (if hv = true then d.validHash else d.invalidHash).length ≥ confirmationsLimit
                    · rw [if_pos c5] at hc; cases hc
                    rw [if_neg c5] at hc
                    by_cases c6 : (if ok = true then d.success else d.failure).length ≥ confirmationsLimit
                    · rw [if_pos c6] at hc; cases hc
                    rw [if_neg c6] at hc
                    dsimp only at hc
                    by_cases c7 : enoughCorroborations s (if ok = true then (addCorr d ok hv a).success
                      else (addCorr d ok hv a).failure).length = true
                    · rw [if_pos c7] at hc
                      split at hc
                      · unfold finalizeState at hc
                        split at hc
                        · obtain ⟨a, avn, _, _, rfl⟩ := setUpTx_ok env hc
                          exact .of_eq env rfl rfl
                        · unfold completeTransaction at hc
                          dsimp only at hc
                          split at hc
                          · cases hc
                          · injection hc with hc; subst hc
                            refine WorldTold.trans env ?_ (processNext_told env _)
                            exact ⟨[_], rfl, rfl, by simp⟩
                      · cases hc
                    · rw [if_neg c7] at hc
                      injection hc with hc; subst hc; exact .of_eq env rfl rfl
    · exact hid
  | removeActive =>
    simp only [step, removeActive]
    cases ha : s.active with
    | none => exact hid
    | some req =>
      simp only [commit]
      exact (notifyFailed_told env s req.request).trans env (processNext_told env _)
  | setTxId id => exact .of_eq env rfl rfl
  | setInstance v i =>
    simp only [step]
    unfold setInstance
    by_cases c1 : v = false
    · rw [if_pos c1]; exact hid
    rw [if_neg c1]
    dsimp only
    have hq : WorldTold env s { s with instanceId := i } := .of_eq env rfl rfl
    split
    · split
      · rename_i r hr
        cases hsu : setUpTx env { s with instanceId := i } r 0 with
        | error e => exact hid
        | ok s' =>
          obtain ⟨a, avn, _, _, rfl⟩ := setUpTx_ok env hsu
          exact .of_eq env rfl rfl
      · exact hq
    · exact hq
  | external w avn now block lifetime => exact absurd rfl (hop _ _ _ _ _)

/-- Requests accepted and not yet answered: the active one, then the queue. -/
def outstanding (s : State W) : List Request := s.active.toList.map Active.request ++ s.queue

/-- The notification that answers a request. -/
def Answers (r : Request) (o : Obs) : Prop :=
  match r with
  | .send q => ∃ ok, o = .result q.txId q.callerId ok
  | .lower q => ∃ pr, o = .lowerResult q.lowerId q.callerId pr ∧
      ∀ ps sigs, pr = some (ps, sigs) → ps = q.params ∧ sigs.length ≤ confirmationsLimit

/-- The active request holds at most `ConfirmationsLimit` confirmations, and nothing waits while nothing is active. -/
def Tidy (s : State W) : Prop :=
  (s.queue ≠ [] → s.active.isSome = true) ∧ ∀ a, s.active = some a → a.confirmations.length ≤ confirmationsLimit

theorem failObs_answers (r : Request) : Answers r (failObs r) := by
  cases r with
  | send q => exact ⟨false, rfl⟩
  | lower q => exact ⟨none, rfl, by simp⟩

/-- With `ConfirmationsLimit` confirmations collected, a further one changes nothing. -/
theorem confirm_full (s : State W) (req : Active) (id sig a : Nat) (ha : s.active = some req)
    (hf : confirmationsLimit ≤ req.confirmations.length) : step env s (.confirm id sig a) = s := by
  simp only [step]
  split
  · have : addConfirmation env s id sig a = .ok s ∨ ∃ e, addConfirmation env s id sig a = .error e := by
      unfold addConfirmation
      rw [ha]
      dsimp only
      split
      · exact .inl rfl
      · split
        · exact .inl rfl
        · split
          · exact .inl rfl
          · split
            · exact .inr ⟨_, rfl⟩
            · split
              · exact .inr ⟨_, rfl⟩
              · exact .inr ⟨_, rfl⟩
    rcases this with h | ⟨e, h⟩ <;> rw [h] <;> rfl
  · rfl

/-- What a step of the bridge other than a lower request does to the outstanding requests: some at the head are answered, in
order, with the notifications logged; sends may be added at the end. -/
structure Advance (s s' : State W) (answered : List Request) (obs : List Obs) (new : List Request) : Prop where
  requests : outstanding s ++ new = answered ++ outstanding s'
  answers : List.Forall₂ Answers answered obs
  world : s'.world = obs.foldl (notify env) s.world
  sends : ∀ r ∈ new, ∃ q, r = .send q
  log : s'.log = s.log ++ (new.map Obs.accepted ++ obs)

theorem Advance.same {s s' : State W} (h1 : outstanding s' = outstanding s) (h2 : s'.world = s.world)
    (h3 : s'.log = s.log) : Advance env s s' [] [] [] :=
  ⟨by simp [h1], .nil, by simp [h2], by simp, by simp [h3]⟩

theorem forall2_failObs (l : List Request) : List.Forall₂ Answers l (l.map failObs) := by
  induction l with
  | nil => exact .nil
  | cons r l ih => exact .cons (failObs_answers r) ih

theorem step_progress (s : State W) (op : Step W) (hop : ∀ w a n b l, op ≠ .external w a n b l)
    (hlo : ∀ i ps c, op ≠ .lowerProof i ps c) (ht : Tidy s) :
    Tidy (step env s op) ∧ ∃ answered obs new, Advance env s (step env s op) answered obs new := by
  obtain ⟨told, hl0, hw0, hacc⟩ := step_told env s op hop hlo
  have hv := step_view env s op
  generalize hs' : step env s op = s' at hv hl0 hw0
  have told_nil : s'.log = s.log → s'.world = s.world := by
    intro h
    rw [h] at hl0
    have : told = [] := by simpa using hl0
    rw [hw0, this]; rfl
  have hfin : ∀ req o, s.active = some req → Answers req.request o → Finished env s o s' →
      Tidy s' ∧ ∃ answered obs new, Advance env s s' answered obs new := by
    rintro req o ha hans ⟨dropped, f1, f2, f3, f4, f5⟩
    refine ⟨⟨f3, fun a h => ?_⟩, req.request :: dropped, o :: dropped.map failObs, [], ?_, ?_, ?_, by simp, ?_⟩
    · rw [(f5 a h).2.1]; simp
    · unfold outstanding
      rw [ha, ← f2]; simp
    · exact .cons hans (forall2_failObs dropped)
    · have : told = o :: dropped.map failObs := by
        rw [f1, List.append_assoc] at hl0
        have := List.append_cancel_left hl0
        rw [← this]; rfl
      rw [hw0, this]
    · rw [f1]; simp
  have hacc1 : ∀ r, s'.log = s.log ++ [.accepted r] → (∃ q, r = .send q) ∧ s'.world = s.world := by
    intro r h
    have e : told = [.accepted r] := by
      rw [h] at hl0; exact (List.append_cancel_left hl0).symm
    exact ⟨hacc r (by simp [e]), by rw [hw0, e]; rfl⟩
  cases hv with
  | quiet op s' ha hq hl =>
    refine ⟨⟨by rw [ha, hq]; exact ht.1, by rw [ha]; exact ht.2⟩, [], [], [], .same env ?_ (told_nil hl) hl⟩
    unfold outstanding; rw [ha, hq]
  | queued op r s' ha hlen ha' hq hl hn =>
    obtain ⟨h1, h2⟩ := hacc1 r hl
    refine ⟨⟨by rw [ha']; exact fun _ => ha, by rw [ha']; exact ht.2⟩, [], [], [r], ?_, .nil, h2, ?_, ?_⟩
    · unfold outstanding; rw [ha', hq]; simp
    · simpa using h1
    · rw [hl]; simp
  | activated op r a s' ha ha' hf hq hl hn =>
    obtain ⟨h1, h2⟩ := hacc1 r hl
    have hqe : s.queue = [] := by
      refine Classical.byContradiction (fun hne => ?_)
      have := ht.1 hne; simp [ha] at this
    refine ⟨⟨by rw [ha']; simp, fun b hb => ?_⟩, [], [], [r], ?_, .nil, h2, by simpa using h1, by rw [hl]; simp⟩
    · rw [ha'] at hb; injection hb with hb; subst hb; rw [hf.2.1]; simp
    · unfold outstanding; rw [ha', hq, hqe, ha, Option.toList_some, List.map_singleton, hf.1]; simp
  | confirmed id sig author req ha =>
    have hlt : req.confirmations.length < confirmationsLimit := by
      refine Classical.byContradiction (fun hge => ?_)
      have e := confirm_full env s req id sig author ha (by omega)
      rw [e] at hs'
      have h2 := congrArg State.active hs'
      rw [ha] at h2
      have h3 := congrArg (fun x : Option Active => x.map (fun a => a.confirmations.length)) h2
      simp at h3
    refine ⟨⟨by simp, fun b hb => ?_⟩, [], [], [], .same env ?_ rfl rfl⟩
    · injection hb with hb; subst hb; simp; omega
    · unfold outstanding; rw [ha]; rfl
  | lowerDone id sig author req r s' ha hr hid hauth hver hnew hen hf =>
    have hlt : req.confirmations.length < confirmationsLimit := by
      refine Classical.byContradiction (fun hge => ?_)
      have e := confirm_full env s req id sig author ha (by omega)
      rw [e] at hs'
      obtain ⟨dropped, f1, _⟩ := hf
      rw [← hs'] at f1
      have := congrArg List.length f1
      simp at this
    refine hfin req _ ha ?_ hf
    rw [hr]
    refine ⟨_, rfl, fun ps sigs h => ?_⟩
    simp only [Option.some.injEq, Prod.mk.injEq] at h
    obtain ⟨rfl, rfl⟩ := h
    exact ⟨rfl, by simp; omega⟩
  | hashed id h author req d ha =>
    refine ⟨⟨by simp, fun b hb => ?_⟩, [], [], [], .same env ?_ rfl rfl⟩
    · injection hb with hb; subst hb; exact ht.2 req ha
    · unfold outstanding; rw [ha]; rfl
  | corroborated id ok hv author rep req d ha =>
    refine ⟨⟨by simp, fun b hb => ?_⟩, [], [], [], .same env ?_ rfl rfl⟩
    · injection hb with hb; subst hb; exact ht.2 req ha
    · unfold outstanding; rw [ha]; rfl
  | decided id ok hv author rep req d r s' ha hr hid hd hrep hauth hns hnew hen hf =>
    refine hfin req _ ha ?_ hf
    rw [hr]
    exact ⟨ok, rfl⟩
  | removed req s' ha hf => exact hfin req _ ha (failObs_answers _) hf
  | reset op req r a s' ha hr ha' hf hop hq hl hn =>
    refine ⟨⟨by rw [ha']; simp, fun b hb => ?_⟩, [], [], [], .same env ?_ (told_nil hl) hl⟩
    · rw [ha'] at hb; injection hb with hb; subst hb; rw [hf.2.1]; simp
    · unfold outstanding; rw [ha', hq, ha]; simp [hf.1, hr]

/-- What a lower request does to the outstanding requests: it joins the end, or is refused without any effect. -/
theorem lowerProof_progress (s : State W) (i ps : Nat) (c : List UInt8) (ht : Tidy s) :
    (∃ e, generateLowerProof env s i ps c = (s, .error e)) ∨
    ((generateLowerProof env s i ps c).2 = .ok () ∧ Tidy (generateLowerProof env s i ps c).1 ∧
      outstanding (generateLowerProof env s i ps c).1 = outstanding s ++ [.lower ⟨i, ps, c⟩] ∧
      (generateLowerProof env s i ps c).1.world = s.world ∧
      (generateLowerProof env s i ps c).1.log = s.log ++ [.accepted (.lower ⟨i, ps, c⟩)] ∧
      ((generateLowerProof env s i ps c).1.active = s.active ∨
        ∃ a, (generateLowerProof env s i ps c).1.active = some a ∧ Fresh env (.lower ⟨i, ps, c⟩) a) ∧
      (generateLowerProof env s i ps c).1.avn = s.avn) := by
  unfold generateLowerProof
  by_cases h : c.length > 50
  · rw [if_pos h]; exact .inl ⟨_, rfl⟩
  rw [if_neg h]
  dsimp only
  cases he : enqueueOrSetUp env s (.lower { lowerId := i, params := ps, callerId := c }) with
  | error e => exact .inl ⟨_, rfl⟩
  | ok s2 =>
    right
    obtain ⟨e1, e2⟩ := enqueue_told env he
    refine ⟨rfl, ?_⟩
    unfold enqueueOrSetUp at he
    by_cases ha : s.active.isSome
    · rw [if_pos ha] at he
      unfold queueRequest at he
      split at he
      · injection he with he
        subst he
        exact ⟨⟨fun _ => ha, ht.2⟩, by simp [outstanding], rfl, rfl, .inl rfl, rfl⟩
      · cases he
    · rw [if_neg ha] at he
      have hav : s2.avn = s.avn := by
        simp only [setUp, setUpLower] at he
        split at he
        · cases he
        · injection he with he; rw [← he]
      obtain ⟨a, avn, hf, rfl⟩ := setUp_ok env he
      have ha' : s.active = none := by simpa using ha
      have hqe : s.queue = [] := by
        refine Classical.byContradiction (fun hne => ?_)
        have := ht.1 hne; simp [ha'] at this
      refine ⟨⟨by simp, fun b hb => ?_⟩, ?_, rfl, rfl, .inr ⟨a, rfl, hf⟩, hav⟩
      · injection hb with hb; subst hb; rw [hf.2.1]; simp
      · simp [outstanding, ha', hqe, hf.1]

end Verif.BridgeTx
