import Verif.Props.EventWorker

/-!
# C93: announced events get decided, and what can stop that
-/

namespace Verif.EventCheck

open Verif Verif.Events
open Verif.EthEvents (EventId CheckResult EthEvent State Step Pending Unchecked Obs run step run_snoc View step_view)
open Verif.Parsing (EventData)

variable {W : Type} {readJson : List UInt8 → Option Json} {code : Option EventData → Nat}

/-! ## Progress -/

/-- **C93, the primary's check is accepted (partial: only for the head of the queue, see below).** When the first finalised event of the queue is genuine with well formed data and
old enough, and the primary of the block runs its worker, its submission is accepted: the event leaves the queue and stands in
the pending list as `Ok` with its data. -/
theorem C93_genuine_event_gets_checked_partial (handler : EthEvent → W → W × Bool) (nd : Node) (s : State W) (finalised : Nat)
    (u : Unchecked) (r : Receipt) (current : Nat) (e : EventData)
    (hn : nextToCheck s finalised = some u) (hs : Sees readJson nd u.id r current) (hr : Readable r u.id)
    (hg : Genuine nd.cfg r u.id e) (hc : nd.cfg.minConfs ≤ confirmations current r.block) (hvalid : isValid (some e) = true)
    (hme : Avn.isValidator s.validators nd.me = true) (hprim : Avn.primaryForBlock s.validators s.block = .ok nd.me)
    (hroom : s.pending.length < 50) (hb : s.block + s.period < pow32) :
    ∃ st rest p, work readJson code nd s s.block finalised = .ok (nd.validated, st :: rest) ∧
      p.check.result = .ok ∧ p.check.event = ⟨u.id, code (some e)⟩ ∧ p.check.readyAfter = s.block + s.period ∧
      p.check.checkedBy = nd.me ∧ p.counter = u.counter ∧ p.block = s.block ∧
      (step handler s st).pending = s.pending ++ [p] ∧
      (step handler s st).unchecked = s.unchecked.eraseP (fun x => x.id == u.id && x.counter == u.counter) := by
  have hv : verdict readJson nd u.id = .ok ⟨.ok, some e⟩ := by
    rcases verdict_truth hs hr with ⟨e', hg', hv⟩ | ⟨hg', -⟩
    · rw [hv, if_neg (by omega), hg.unique hg']
    · exact absurd ⟨e, hg⟩ hg'
  have hcheck : checkStep readJson code nd s s.block finalised =
      .ok (some (.submit ⟨⟨u.id, code (some e)⟩, .ok, nd.me, s.block, 0, 0⟩ u.counter nd.me true true)) := by
    unfold checkStep
    rw [hn]
    dsimp only
    rw [hv]
    simp [Out.bind, hvalid]
  have hu : u ∈ s.unchecked := List.mem_of_find?_eq_some hn
  have hany : s.unchecked.any (fun x => x.id == u.id && x.counter == u.counter) = true := by
    rw [List.any_eq_true]; exact ⟨u, hu, by simp⟩
  refine ⟨.submit ⟨⟨u.id, code (some e)⟩, .ok, nd.me, s.block, 0, 0⟩ u.counter nd.me true true,
    (processStep nd s s.block finalised).toList,
    ⟨⟨⟨u.id, code (some e)⟩, .ok, nd.me, s.block, s.block + s.period, s.validators.length / s.quorumFactor⟩, u.counter, s.block⟩,
    ?_, rfl, rfl, rfl, rfl, rfl, rfl, ?_⟩
  · unfold work
    rw [hprim]
    dsimp only
    rw [if_pos rfl, hcheck]
    rfl
  · have hvs : EthEvents.validSubmit s ⟨⟨u.id, code (some e)⟩, .ok, nd.me, s.block, 0, 0⟩ u.counter nd.me true true = true := by
      unfold EthEvents.validSubmit
      dsimp only
      rw [hany, hprim, hme]
      simp
    show (if EthEvents.validSubmit s ⟨⟨u.id, code (some e)⟩, .ok, nd.me, s.block, 0, 0⟩ u.counter nd.me true true = true then
        EthEvents.commit s (EthEvents.submitCheck s ⟨⟨u.id, code (some e)⟩, .ok, nd.me, s.block, 0, 0⟩ u.counter) else s).pending = _ ∧
      (if EthEvents.validSubmit s ⟨⟨u.id, code (some e)⟩, .ok, nd.me, s.block, 0, 0⟩ u.counter nd.me true true = true then
        EthEvents.commit s (EthEvents.submitCheck s ⟨⟨u.id, code (some e)⟩, .ok, nd.me, s.block, 0, 0⟩ u.counter) else s).unchecked = _
    rw [if_pos hvs]
    unfold EthEvents.submitCheck
    dsimp only
    rw [if_neg (by rw [hme]; simp), if_neg (by rw [hany]; simp), if_pos hb]
    unfold EthEvents.commit EthEvents.emit EthEvents.pushBounded
    dsimp only
    rw [if_pos (show s.pending.length < EthEvents.maxPending from hroom)]
    exact ⟨rfl, rfl⟩

/-- **C93, a pending result stays until it is processed.** Whatever happens, a pending result stays in the list until a
transaction processes its event, after its challenge period. -/
theorem C93_pending_until_processed (handler : EthEvent → W → W × Bool) (s : State W) (steps : List (Step W)) (p : Pending)
    (hp : p ∈ s.pending) :
    p ∈ (run handler s steps).pending ∨
      ∃ pre k v g post, steps = pre ++ .process p.id k v g :: post ∧ p ∈ (run handler s pre).pending ∧
        Avn.isValidator (run handler s pre).validators v = true := by
  induction steps using List.reverseRecOn with
  | nil => exact .inl hp
  | append_singleton l x ih =>
    rcases ih with ih | ⟨pre, k, v, g, post, h1, h2, h3⟩
    · rw [run_snoc]
      have hcase : ∀ (id : EventId) (named : Nat), Avn.isValidator (run handler s l).validators named = true →
          (∃ k g, x = .process id k named g) →
          p ∈ EthEvents.removeLast (run handler s l).pending id ∨
            ∃ pre k v g post, l ++ [x] = pre ++ .process p.id k v g :: post ∧ p ∈ (run handler s pre).pending ∧
              Avn.isValidator (run handler s pre).validators v = true := by
        rintro id named hv ⟨k, g, rfl⟩
        by_cases hid : p.id = id
        · right; subst hid; exact ⟨l, k, named, g, [], rfl, ih, hv⟩
        · left; exact EthEvents.removeLast_other ih hid
      generalize hgen : step handler (run handler s l) x = s'
      have v : View handler (run handler s l) x s' := hgen ▸ step_view _ x
      cases v with
      | frame s' hu hp' => left; rw [hp']; exact ih
      | period => left; exact ih
      | bridge => left; exact ih
      | added => left; exact ih
      | submitted => left; exact EthEvents.mem_pushBounded_old ih
      | delivered id named q hq hb hr hc hn hv hs => exact hcase id named hv hs
      | refused id named q hq hb hr hv hs => exact hcase id named hv hs
      | challenged => left; exact ih
    · exact .inr ⟨pre, k, v, g, post ++ [x], by rw [h1]; simp, h2, h3⟩

/-- **C93, a ready result is processed.** In any history: when the primary's worker reaches a ready `Ok` result which was not
challenged successfully and whose transaction was not processed yet, its transaction hands the event to its handler. -/
theorem C93_ready_event_is_delivered (g : EthEvents.Config W) (handler : EthEvent → W → W × Bool) (steps : List (Step W)) (nd : Node)
    (finalised : Nat) (p : Pending)
    (hn : nextToProcess (g.after handler steps) (g.after handler steps).block finalised = some p)
    (hok : p.check.result = .ok) (hch : EthEvents.challengeSuccessful (g.after handler steps) p.check = false)
    (hnew : (g.after handler steps).processed p.id.txHash = none)
    (hme : Avn.isValidator (g.after handler steps).validators nd.me = true) :
    ∃ st, processStep nd (g.after handler steps) (g.after handler steps).block finalised = some st ∧
      ((g.after handler steps).block, Obs.handled p.check.event) ∈ (g.after handler (steps ++ [st])).log ∧
      (g.after handler (steps ++ [st])).world = (handler p.check.event (g.after handler steps).world).1 := by
  refine ⟨.process p.id p.counter nd.me true, by unfold processStep; rw [hn]; rfl, ?_⟩
  have hinv := g.inv handler steps
  have hstep : g.after handler (steps ++ [.process p.id p.counter nd.me true]) =
      step handler (g.after handler steps) (.process p.id p.counter nd.me true) := by
    unfold EthEvents.Config.after; rw [run_snoc]
  rw [hstep]
  generalize g.after handler steps = s at *
  have hmem : p ∈ s.pending ∧ p.check.readyAfter < s.block := by
    have := List.mem_of_getLast? hn
    simp only [List.mem_filter, Bool.and_eq_true, decide_eq_true_eq] at this
    exact ⟨this.1, this.2.1⟩
  have hu : (s.pending.map Pending.id).Nodup := by
    have := hinv.nodup
    unfold EthEvents.queued at this
    exact (List.nodup_append.1 this).2.1
  have hlast : EthEvents.lastPending s.pending p.id = some p := by
    unfold EthEvents.lastPending
    cases hf : s.pending.reverse.find? (fun q => q.id == p.id) with
    | none =>
      rw [List.find?_eq_none] at hf
      exact absurd (by simp) (hf p (by simpa using hmem.1))
    | some q =>
      have e1 := List.find?_some hf
      have e2 := List.mem_of_find?_eq_some hf
      simp only [beq_iff_eq] at e1
      simp only [List.mem_reverse] at e2
      rw [List.inj_on_of_nodup_map hu e2 hmem.1 e1]
  have hvp : EthEvents.validProcess s p.id p.counter nd.me true = true := by
    unfold EthEvents.validProcess
    rw [hme]
    simp only [Bool.and_true, List.any_eq_true]
    exact ⟨p, hmem.1, by simp⟩
  have : step handler s (.process p.id p.counter nd.me true) =
      EthEvents.deliver handler (EthEvents.settle s p p.id nd.me) p p.id := by
    show (if EthEvents.validProcess s p.id p.counter nd.me true = true then
      EthEvents.commit s (EthEvents.processEvent handler s p.id nd.me) else s) = _
    rw [if_pos hvp]
    unfold EthEvents.processEvent
    rw [if_neg (by rw [hme]; simp), hlast]
    dsimp only
    rw [if_neg (by omega), if_pos ⟨hok, hch, hnew⟩]
    rfl
  rw [this]
  refine ⟨?_, rfl⟩
  rw [EthEvents.delivered_log]
  refine List.mem_append_right _ (List.mem_append_right _ ?_)
  simp

/-! ## Head-of-line blocking -/

/-- The event can make no progress in this validator's hands: its worker crashes on it, or cannot tell yet, or arrives at data the
chain refuses (`EventData::is_valid`). -/
def Stuck (readJson : List UInt8 → Option Json) (nd : Node) (id : EventId) : Prop :=
  verdict readJson nd id = .panic ∨ ∃ v, verdict readJson nd id = .ok v ∧
    (v.result = .httpErrorCheckingEvent ∨ v.result = .insufficientConfirmations ∨ isValid v.data = false)

/-- What an honest world can do next, the states seen so far being `seen` (newest first): users announce events, the sudo account
sets the period, the bridge records transactions, blocks pass and the rest of the runtime changes; and every transaction of a
validator comes out of its worker, run at any block on any state seen so far. -/
def HonestStep (readJson : List UInt8 → Option Json) (code : Option EventData → Nat) (honest : Node → Prop) (seen : List (State W))
    (now : State W) : Step W → Prop
  | .environment b _ _ => now.block ≤ b
  | .addLog .. => True
  | .signedAddLog .. => True
  | .setPeriod _ => True
  | .bridge .. => True
  | st => ∃ nd v block finalised validated steps, honest nd ∧ v ∈ seen ∧
      work readJson code nd v block finalised = .ok (validated, steps) ∧ st ∈ steps

/-- A history in an honest world from state `s`: all states, newest first. -/
inductive HonestRun (readJson : List UInt8 → Option Json) (code : Option EventData → Nat) (honest : Node → Prop)
    (handler : EthEvent → W → W × Bool) (s : State W) : List (State W) → State W → Prop
  | start : HonestRun readJson code honest handler s [s] s
  | next {seen : List (State W)} {now : State W} (st : Step W) (h : HonestRun readJson code honest handler s seen now)
      (hs : HonestStep readJson code honest seen now st) :
      HonestRun readJson code honest handler s (step handler now st :: seen) (step handler now st)

/-- The announced event `u` heads the queue of `t`, in which nothing was removed since `s`, nor anything checked. -/
structure Held (u : Unchecked) (s t : State W) : Prop where
  head : ∃ rest, t.unchecked = u :: rest
  older : ∀ x ∈ t.unchecked, u.block ≤ x.block
  now : u.block ≤ t.block
  kept : s.unchecked <+: t.unchecked
  unchecked : ∀ b e res by_ k per mv, (b, Obs.validated e res by_ k per mv) ∈ t.log → (b, Obs.validated e res by_ k per mv) ∈ s.log

theorem nextToCheck_held {u : Unchecked} {s t : State W} (h : Held u s t) (fin : Nat) :
    nextToCheck t fin = some u ∨ nextToCheck t fin = none := by
  obtain ⟨rest, hr⟩ := h.head
  by_cases hb : u.block ≤ fin
  · left; unfold nextToCheck; rw [hr]; simp [hb]
  · right; unfold nextToCheck
    rw [List.find?_eq_none]
    intro x hx
    have := h.older x hx
    simp only [decide_eq_true_eq]; omega

/-- What a stuck head lets the workers submit: the only check result is about `u`, with refused data. -/
theorem work_held {nd : Node} {u : Unchecked} {s t : State W} (h : Held u s t) (hst : Stuck readJson nd u.id) {block fin : Nat}
    {validated : Option (List EventId)} {steps : List (Step W)} (hw : work readJson code nd t block fin = .ok (validated, steps))
    {c : EthEvents.Check} {k n : Nat} {d g : Bool} (hm : Step.submit c k n d g ∈ steps) : d = false := by
  unfold work at hw
  cases hp : Avn.primaryForBlock t.validators block with
  | error e => rw [hp] at hw; simp only [Out.ok.injEq, Prod.mk.injEq] at hw; rw [← hw.2] at hm; simp at hm
  | ok pr =>
    rw [hp] at hw
    dsimp only at hw
    by_cases hme : pr = nd.me
    · rw [if_pos hme] at hw
      have hcs : ∀ c', checkStep readJson code nd t block fin = .ok c' → ∀ c k n d g, c' = some (.submit c k n d g) → d = false := by
        intro c' hc'
        unfold checkStep at hc'
        rcases nextToCheck_held h fin with hn | hn
        · rw [hn] at hc'
          dsimp only at hc'
          rcases hst with hst | ⟨v, hv, hst⟩
          · rw [hst] at hc'; cases hc'
          · rw [hv] at hc'
            simp only [Out.bind] at hc'
            by_cases hq : v.result = .httpErrorCheckingEvent ∨ v.result = .insufficientConfirmations
            · rw [if_pos hq] at hc'; injection hc' with hc'; subst hc'; intro _ _ _ _ _ h; cases h
            · rw [if_neg hq] at hc'; injection hc' with hc'; subst hc'
              intro _ _ _ _ _ h; injection h with h; injection h with _ _ _ h
              rw [← h]
              rcases hst with hst | hst | hst
              · exact absurd (.inl hst) hq
              · exact absurd (.inr hst) hq
              · exact hst
        · rw [hn] at hc'; injection hc' with hc'; subst hc'; intro _ _ _ _ _ h; cases h
      cases hck : checkStep readJson code nd t block fin with
      | err => rw [hck] at hw; cases hw
      | panic => rw [hck] at hw; cases hw
      | ok c' =>
        rw [hck] at hw
        simp only [Out.bind, Out.ok.injEq, Prod.mk.injEq] at hw
        rw [← hw.2] at hm
        rcases List.mem_append.1 hm with hm | hm
        · exact hcs c' hck c k n d g (by simpa [Option.mem_toList] using hm)
        · unfold processStep at hm
          simp at hm
    · rw [if_neg hme] at hw
      cases hvs : validateStep readJson code nd t fin with
      | err => rw [hvs] at hw; cases hw
      | panic => rw [hvs] at hw; cases hw
      | ok r =>
        rw [hvs] at hw
        simp only [Out.bind, Out.ok.injEq, Prod.mk.injEq] at hw
        rw [← hw.2] at hm
        have hr2 : r.2 = some (.submit c k n d g) := by simpa [Option.mem_toList] using hm
        unfold validateStep at hvs
        cases hn : nextToValidate nd t fin with
        | none => rw [hn] at hvs; injection hvs with hvs; subst hvs; cases hr2
        | some p =>
          rw [hn] at hvs
          dsimp only at hvs
          cases hvd : verdict readJson nd p.id with
          | err => rw [hvd] at hvs; cases hvs
          | panic => rw [hvd] at hvs; cases hvs
          | ok v =>
            rw [hvd] at hvs
            simp only [Out.bind] at hvs
            split_ifs at hvs <;> (injection hvs with hvs; subst hvs; cases hr2)

theorem step_block_eq (handler : EthEvent → W → W × Bool) (s : State W) (x : Step W) :
    (step handler s x).block = match x with | .environment b _ _ => b | _ => s.block := by
  have aux : ∀ ty tx a (n : Nat → Nat), (EthEvents.commit s (EthEvents.addEvent { s with nonces := n } ty tx a)).block = s.block := by
    intro ty tx a n
    unfold EthEvents.addEvent
    split_ifs <;> rfl
  cases x with
  | environment b vs w => rfl
  | addLog ty tx a =>
    simp only [step, EthEvents.addLog]
    split_ifs
    · rfl
    · exact aux ty tx a s.nonces
  | signedAddLog ty tx a g f =>
    simp only [step, EthEvents.signedAddLog]
    split_ifs
    · rfl
    · rfl
    · rfl
    · exact aux _ _ _ _
  | submit c k n d g =>
    simp only [step, EthEvents.submitCheck]
    split_ifs <;> rfl
  | process id k n g =>
    simp only [step, EthEvents.processEvent]
    split_ifs
    · rfl
    · cases EthEvents.lastPending s.pending id with
      | none => rfl
      | some p => dsimp only; split_ifs <;> rfl
    · rfl
  | challenge id a k n g =>
    simp only [step]
    by_cases hv : EthEvents.validChallenge s id a k n g = true
    · rw [if_pos hv]
      unfold EthEvents.challengeEvent
      by_cases h1 : Avn.isValidator s.validators a = false
      · rw [if_pos h1]; rfl
      · rw [if_neg h1]
        cases s.pending.reverse.find? (fun p => p.id == id && p.counter == k) with
        | none => rfl
        | some p => dsimp only; split_ifs <;> rfl
    · rw [if_neg hv]
  | setPeriod p => simp only [step, EthEvents.setPeriod]; split_ifs <;> rfl
  | bridge tx acc => simp only [step]; split_ifs <;> rfl

theorem emit_log_mem {s : State W} {es : List Obs} {x : Nat × Obs} (h : x ∈ (EthEvents.emit s es).log) :
    x ∈ s.log ∨ x.2 ∈ es := by
  simp only [EthEvents.emit, List.mem_append, List.mem_map] at h
  rcases h with h | ⟨e, he, rfl⟩
  · exact .inl h
  · exact .inr he

theorem held_step {handler : EthEvent → W → W × Bool} {u : Unchecked} {s t : State W} (h : Held u s t) (x : Step W)
    (hblock : ∀ b vs w, x = .environment b vs w → t.block ≤ b) (hsub : ∀ c k n d g, x = .submit c k n d g → d = false) :
    Held u s (step handler t x) := by
  have hb : u.block ≤ (step handler t x).block := by
    rw [step_block_eq]
    cases x with
    | environment b vs w => exact le_trans h.now (hblock b vs w rfl)
    | _ => exact h.now
  generalize hgen : step handler t x = t' at hb
  have v : View handler t x t' := hgen ▸ step_view t x
  have hsame : t'.unchecked = t.unchecked → (∀ b e res by_ k per mv, (b, Obs.validated e res by_ k per mv) ∈ t'.log →
      (b, Obs.validated e res by_ k per mv) ∈ t.log) → Held u s t' := fun h1 h2 =>
    ⟨by rw [h1]; exact h.head, by rw [h1]; exact h.older, hb, by rw [h1]; exact h.kept,
      fun b e res a k per mv hx => h.unchecked _ _ _ _ _ _ _ (h2 _ _ _ _ _ _ _ hx)⟩
  cases v with
  | frame t' hu hp hpr hc hq hi hf hl => exact hsame hu (fun _ _ _ _ _ _ _ hx => hl ▸ hx)
  | period p hp =>
    refine hsame rfl fun _ _ _ _ _ _ _ hx => ?_
    rcases emit_log_mem hx with hx | hx
    · exact hx
    · simp at hx
  | bridge tx acc hne => exact hsame rfl (fun _ _ _ _ _ _ _ hx => hx)
  | added ty tx a nonces hf hpr hx hlen h0 =>
    refine ⟨?_, ?_, hb, ?_, ?_⟩
    · obtain ⟨rest, hr⟩ := h.head
      exact ⟨rest ++ [⟨⟨signature ty, tx⟩, wrapInc64 t.ingress, t.block⟩], by show t.unchecked ++ _ = _; rw [hr]; rfl⟩
    · intro y hy
      rcases List.mem_append.1 (show y ∈ t.unchecked ++ [⟨⟨signature ty, tx⟩, wrapInc64 t.ingress, t.block⟩] from hy) with hy | hy
      · exact h.older y hy
      · rw [List.mem_singleton] at hy; subst hy; exact h.now
    · exact h.kept.trans (List.prefix_append _ _)
    · intro b e res a' k per mv hx
      rcases emit_log_mem hx with hx | hx
      · exact h.unchecked _ _ _ _ _ _ _ hx
      · simp at hx
  | submitted c counter hv hex hb' hs =>
    obtain ⟨n, d, g, rfl, hvs⟩ := hs
    have := hsub _ _ _ _ _ rfl
    subst this
    unfold EthEvents.validSubmit at hvs
    simp at hvs
  | delivered id named p hp hb' hr hc hn hv hs =>
    refine hsame rfl fun b e res a k per mv hx => ?_
    rw [EthEvents.delivered_log] at hx
    rcases List.mem_append.1 hx with hx | hx
    · exact hx
    · exfalso
      rcases List.mem_append.1 hx with hx | hx
      · obtain ⟨o, ho, he⟩ := List.mem_map.1 hx
        injection he with _ he; subst he
        exact EthEvents.settle_no_validated _ _ _ _ _ _ _ _ _ _ ho
      · simp only [List.map_cons, List.map_nil, List.mem_cons, Prod.mk.injEq, reduceCtorEq, and_false, List.not_mem_nil, or_false,
          false_or] at hx
        split_ifs at hx <;> simp at hx
  | refused id named p hp hb' hr hv hs =>
    refine hsame rfl fun b e res a k per mv hx => ?_
    rw [EthEvents.refused_log] at hx
    rcases List.mem_append.1 hx with hx | hx
    · exact hx
    · exfalso
      rcases List.mem_append.1 hx with hx | hx
      · obtain ⟨o, ho, he⟩ := List.mem_map.1 hx
        injection he with _ he; subst he
        exact EthEvents.settle_no_validated _ _ _ _ _ _ _ _ _ _ ho
      · simp at hx
  | challenged id by_ counter p hv hp hself hdup hs =>
    refine hsame rfl fun b e res a k per mv hx => ?_
    rcases emit_log_mem hx with hx | hx
    · exact hx
    · simp at hx

theorem honest_held {honest : Node → Prop} {handler : EthEvent → W → W × Bool} {u : Unchecked} {s : State W} (h0 : Held u s s)
    (hst : ∀ nd, honest nd → Stuck readJson nd u.id) {seen : List (State W)} {now : State W}
    (h : HonestRun readJson code honest handler s seen now) : (∀ t ∈ seen, Held u s t) ∧ now ∈ seen := by
  induction h with
  | start => exact ⟨by simpa using h0, by simp⟩
  | next st h hs ih =>
    rename_i seen now
    refine ⟨?_, by simp⟩
    intro t ht
    rcases List.mem_cons.1 ht with rfl | ht
    · refine held_step (ih.1 _ ih.2) st ?_ ?_
      · rintro b vs w rfl; exact hs
      · rintro c k n d g rfl
        obtain ⟨nd, v, block, fin, val, steps, hnd, hv, hw, hm⟩ := hs
        exact work_held (ih.1 v hv) (hst nd hnd) hw hm
    · exact ih.1 t ht

/-- **C93, the full claim fails: one event can block all others.** When the event at the head of the queue is stuck for every honest
validator, then however long an honest world goes on, that event stays at the head, nothing ever leaves the queue, and no event
is ever checked again. -/
theorem C93_stuck_head_blocks_all {honest : Node → Prop} {handler : EthEvent → W → W × Bool} {u : Unchecked}
    {rest : List Unchecked} {s : State W} (hu : s.unchecked = u :: rest) (hold : ∀ x ∈ rest, u.block ≤ x.block)
    (hb : u.block ≤ s.block) (hst : ∀ nd, honest nd → Stuck readJson nd u.id) {seen : List (State W)} {now : State W}
    (h : HonestRun readJson code honest handler s seen now) :
    s.unchecked <+: now.unchecked ∧
      ∀ b e res by_ k per mv, (b, Obs.validated e res by_ k per mv) ∈ now.log → (b, Obs.validated e res by_ k per mv) ∈ s.log := by
  have h0 : Held u s s := ⟨⟨rest, hu⟩, by
    intro x hx; rw [hu] at hx
    rcases List.mem_cons.1 hx with rfl | hx
    · exact le_refl _
    · exact hold x hx, hb, List.prefix_refl _, fun _ _ _ _ _ _ _ h => h⟩
  have := honest_held (code := code) (handler := handler) h0 hst h
  exact ⟨(this.1 now this.2).kept, (this.1 now this.2).unchecked⟩

/-- **C93, what makes an event stuck (1).** A genuine event whose data the chain calls malformed: every node whose service either
fails or answers with the receipt is stuck. -/
theorem C93_malformed_data_is_stuck (nd : Node) (id : EventId) (r : Receipt) (e : EventData) (hr : Readable r id)
    (hg : Genuine nd.cfg r id e) (hbad : isValid (some e) = false)
    (hs : nd.fetch id = none ∨ ∃ current, Sees readJson nd id r current) : Stuck readJson nd id := by
  rcases hs with hs | ⟨current, hs⟩
  · refine .inr ⟨⟨.httpErrorCheckingEvent, none⟩, ?_, .inl rfl⟩
    unfold verdict; rw [hs]; rfl
  · rcases verdict_truth hs hr with ⟨e', hg', hv⟩ | ⟨hg', -⟩
    · refine .inr ⟨_, hv, ?_⟩
      split_ifs
      · exact .inr (.inl rfl)
      · rw [← hg.unique hg']; exact .inr (.inr hbad)
    · exact absurd ⟨e, hg⟩ hg'

/-- **C93, what makes an event stuck (2).** An anonymous log in front of the event in a successful transaction. -/
theorem C93_anonymous_log_is_stuck (nd : Node) (id : EventId) (r : Receipt) (hok : r.status = some 1) (ha : AnonymousFirst r id)
    (hs : nd.fetch id = none ∨ ∃ current, Sees readJson nd id r current) : Stuck readJson nd id := by
  rcases hs with hs | ⟨current, body, hf, a⟩
  · refine .inr ⟨⟨.httpErrorCheckingEvent, none⟩, ?_, .inl rfl⟩
    unfold verdict; rw [hs]; rfl
  · left; unfold verdict; rw [hf]
    exact (C91_panics_iff a nd.cfg id).2 ⟨hok, ha⟩

/-- **C93, a crash also stops processing.** If the worker crashes on the event at the head of the queue once it is finalised, the
primary submits nothing at all, not even for pending results which are ready. -/
theorem C93_crash_stops_processing (nd : Node) (s : State W) (block finalised : Nat) (u : Unchecked)
    (hn : nextToCheck s finalised = some u) (hp : verdict readJson nd u.id = .panic)
    (hprim : Avn.primaryForBlock s.validators block = .ok nd.me) : work readJson code nd s block finalised = .panic := by
  unfold work
  rw [hprim]
  dsimp only
  rw [if_pos rfl]
  unfold checkStep
  rw [hn]
  dsimp only
  rw [hp]; rfl

/-- **C93, the newest first.** Of two ready results the worker processes the later one, so an older one waits as long as newer
ones keep getting ready. -/
theorem C93_newest_first (nd : Node) (s : State W) (block finalised : Nat) (a b c : List Pending) (p q : Pending)
    (hs : s.pending = a ++ p :: b ++ q :: c) (hq : q.check.readyAfter < block ∧ q.block ≤ finalised)
    (hids : (s.pending.map Pending.id).Nodup) :
    ∀ k v g, processStep nd s block finalised ≠ some (.process p.id k v g) := by
  intro k v g h
  unfold processStep at h
  obtain ⟨x, hx, he⟩ := Option.map_eq_some_iff.1 h
  injection he with he
  have hmem : x ∈ q :: c := by
    unfold nextToProcess at hx
    rw [hs, List.filter_append, List.filter_cons_of_pos (by simpa using hq), List.getLast?_append] at hx
    cases hl : (q :: List.filter (fun p => decide (p.check.readyAfter < block) && decide (p.block ≤ finalised)) c).getLast? with
    | none => simp at hl
    | some y =>
      rw [hl] at hx
      simp only [Option.some_or, Option.some.injEq] at hx
      subst hx
      have := List.mem_of_getLast? hl
      rcases List.mem_cons.1 this with rfl | h'
      · simp
      · exact List.mem_cons_of_mem _ (List.mem_of_mem_filter h')
  rw [hs] at hids
  simp only [List.map_append, List.map_cons, List.append_assoc, List.cons_append] at hids
  have h1 := (List.nodup_append.1 hids).2.1
  rw [List.nodup_cons] at h1
  apply h1.1
  rw [← he]
  refine List.mem_append_right _ ?_
  have := List.mem_map_of_mem (f := Pending.id) hmem
  simpa using this

/-! ### Concrete cases -/

/-- An NFT transfer to the zero key, by a recognised contract. -/
def stuckId : EventId := ⟨signature .nftTransferTo, 78⟩
/-- Its log: token 5, receiver zero, operation 1. -/
def stuckLog : EthLog :=
  ⟨exContract, [beBytes 32 (signature .nftTransferTo), beBytes 32 5, beBytes 32 0, beBytes 32 1], []⟩
/-- Its receipt. -/
def stuckReceipt : Receipt := ⟨some 1, some 100, [stuckLog]⟩
/-- Its data. -/
def stuckData : EventData := .nftTransferTo ⟨5, Vector.replicate 32 0, 1⟩

theorem stuck_readable (id : EventId) (h : id.signature = signature .nftTransferTo) : Readable stuckReceipt id := by
  rintro ⟨-, pre, l, post, h1, h2, -⟩
  have : l ∈ stuckReceipt.logs := by rw [h1]; simp
  simp only [stuckReceipt, List.mem_singleton] at this
  subst this
  exact absurd h2 (by decide)

theorem stuck_genuine : Genuine exCfg stuckReceipt stuckId stuckData :=
  ⟨rfl, stuckLog, ⟨[], [], rfl, ⟨_, _, rfl, beVal_beBytes 32 _ (by decide)⟩, by simp⟩, ⟨.nftTransferTo, rfl, by decide⟩,
    .nftTransferTo, rfl, by decide, by decide +kernel⟩

/-- The event is stuck for every node configured like this whose service answers with the receipt or fails. -/
example (readJson : List UInt8 → Option Json) (nd : Node) (hc : nd.cfg = exCfg)
    (hs : nd.fetch stuckId = none ∨ ∃ current, Sees readJson nd stuckId stuckReceipt current) : Stuck readJson nd stuckId :=
  C93_malformed_data_is_stuck nd stuckId stuckReceipt stuckData (stuck_readable _ rfl) (hc ▸ stuck_genuine) (by decide +kernel) hs

/-- A chain on which the stuck event is announced before a genuine one. -/
def stuckChain : EthEvents.Config Unit where
  quorumFactor := 3
  period := 60
  lifts := []
  processed := fun _ => none
  validators := [⟨7, 7⟩, ⟨8, 8⟩]
  filter := [.nftTransferTo, .nftEndBatchListing]
  world := ()
  distinct := by decide
  factor := by decide

/-- The hypotheses of the blocking theorem are met after two announcements. -/
example : ∃ u rest, (stuckChain.after (fun _ w => (w, true)) [.environment 3 stuckChain.validators (),
      .addLog .nftTransferTo 78 1, .addLog .nftEndBatchListing 77 2]).unchecked = u :: rest ∧ u.id = stuckId ∧
    (∃ v ∈ rest, v.id = exId) ∧ ∀ x ∈ rest, u.block ≤ x.block :=
  ⟨⟨stuckId, 1, 3⟩, [⟨exId, 2, 3⟩], by decide +kernel, rfl, ⟨_, List.mem_singleton.2 rfl, rfl⟩, by decide⟩

/-- The hypotheses of the progress theorem are met when only the genuine event is announced. -/
example : ∃ (readJson : List UInt8 → Option Json) (nd : Node) (s : State Unit) (u : Unchecked) (r : Receipt) (e : EventData),
    s = stuckChain.after (fun _ w => (w, true)) [.environment 3 stuckChain.validators (), .addLog .nftEndBatchListing 77 2] ∧
    nextToCheck s 3 = some u ∧ Sees readJson nd u.id r 120 ∧ Readable r u.id ∧ Genuine nd.cfg r u.id e ∧
    nd.cfg.minConfs ≤ confirmations 120 r.block ∧ isValid (some e) = true ∧ Avn.isValidator s.validators nd.me = true ∧
    Avn.primaryForBlock s.validators s.block = .ok nd.me ∧ s.pending.length < 50 ∧ s.block + s.period < pow32 := by
  obtain ⟨readJson, body, a⟩ := answer_exists ⟨some 1, some 100, [exLog]⟩
    (fun l hl => exLog_wf l (by simp at hl; simp [hl])) (by simp) 120
  refine ⟨readJson, ⟨8, exCfg, fun _ => some body, none⟩, _, ⟨exId, 1, 3⟩, _, .nftEndBatchListing ⟨5⟩, rfl, by decide +kernel,
    ⟨body, rfl, a⟩, ?_, ⟨rfl, exLog, ⟨[], [], rfl, ⟨_, _, rfl, exSig⟩, by simp⟩, exRecognised, exHolds⟩,
    (by decide : 20 ≤ confirmations 120 (some 100)), by decide +kernel, ?_, ?_, by decide +kernel, by decide +kernel⟩
  rotate_left
  · show Avn.isValidator _ 8 = true
    decide +kernel
  · show Avn.primaryForBlock _ _ = .ok 8
    decide +kernel
  rintro ⟨-, pre, l, post, h1, h2, -⟩
  have : l ∈ [exLog] := by show l ∈ (⟨some 1, some 100, [exLog]⟩ : Receipt).logs; rw [h1]; simp
  rw [List.mem_singleton] at this
  subst this
  exact absurd h2 (by decide)

end Verif.EventCheck
