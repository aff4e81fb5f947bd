import Verif.Props.EventCheck
import Verif.Props.EthereumEvents

/-!
# C92 and C93: the validators' workers together with the pallet

C92: a validator challenges a pending result exactly when it is false, and enough such validators overturn it.
C93: announced events get decided; what can stop that.
-/

namespace Verif.EventCheck

open Verif Verif.Events
open Verif.EthEvents (EventId CheckResult EthEvent State Step Pending Unchecked Obs run step)
open Verif.Parsing (EventData)

variable {W : Type} {readJson : List UInt8 → Option Json} {code : Option EventData → Nat}

/-- The event happened on Ethereum with this data: the transaction succeeded and its first log of that event comes from the
recognised contract and holds the data. -/
def Genuine (c : Cfg) (r : Receipt) (id : EventId) (e : EventData) : Prop :=
  r.status = some 1 ∧ ∃ l, FirstLog r id l ∧ Recognised c l.address id ∧ Holds id l e

/-- A pending result is false: it says `Ok` with data that is not the event's, or not `Ok` about a genuine event. -/
def States_false (code : Option EventData → Nat) (c : Cfg) (r : Receipt) (p : Pending) : Prop :=
  (p.check.result = .ok ∧ ¬ ∃ e, Genuine c r p.id e ∧ p.check.event.payload = code (some e)) ∨
  (p.check.result ≠ .ok ∧ ∃ e, Genuine c r p.id e)

/-- The worker does not crash on this receipt (see `C91_panics_iff`). -/
def Readable (r : Receipt) (id : EventId) : Prop := ¬ (r.status = some 1 ∧ AnonymousFirst r id)

/-- A node whose service answers with this receipt. -/
def Sees (readJson : List UInt8 → Option Json) (nd : Node) (id : EventId) (r : Receipt) (current : Nat) : Prop :=
  ∃ body, nd.fetch id = some body ∧ Answer readJson body r current

theorem Genuine.unique {c : Cfg} {r : Receipt} {id : EventId} {e e' : EventData} (h : Genuine c r id e) (h' : Genuine c r id e') :
    e = e' := by
  obtain ⟨-, l, h1, -, h2⟩ := h
  obtain ⟨-, l', h1', -, h2'⟩ := h'
  have := h1.unique h1'; subst this
  exact h2.unique h2'

/-- What a node that sees the receipt says about the event. -/
theorem verdict_truth {nd : Node} {id : EventId} {r : Receipt} {current : Nat} (h : Sees readJson nd id r current)
    (hr : Readable r id) :
    (∃ e, Genuine nd.cfg r id e ∧
      verdict readJson nd id = .ok (if confirmations current r.block < nd.cfg.minConfs then ⟨.insufficientConfirmations, none⟩ else ⟨.ok, some e⟩)) ∨
    ((¬ ∃ e, Genuine nd.cfg r id e) ∧ verdict readJson nd id = .ok ⟨.invalid, none⟩) := by
  obtain ⟨body, hb, a⟩ := h
  unfold verdict
  rw [hb]
  rcases verdict_cases a nd.cfg id with ⟨h1, h2⟩ | ⟨h1, ⟨h2, h3⟩ | ⟨h2, h3, h4⟩ | ⟨l, hl, ⟨h2, h3⟩ | ⟨e, hrec, hh, hc⟩⟩⟩
  · right; refine ⟨?_, h2⟩
    rintro ⟨e, hg, -⟩; exact h1 hg
  · exact absurd ⟨h1, h2⟩ hr
  · right; refine ⟨?_, h4⟩
    rintro ⟨e, -, l, hl, -⟩; exact h2 l hl
  · right; refine ⟨?_, h3⟩
    rintro ⟨e, -, l', hl', hr', hh⟩
    have := hl'.unique hl; subst this
    exact h2 ⟨hr', e, hh⟩
  · left
    refine ⟨e, ⟨h1, l, hl, hrec, hh⟩, ?_⟩
    rcases hc with ⟨h2, h3⟩ | ⟨h2, h3⟩
    · rw [if_pos h2]; exact h3
    · rw [if_neg (by omega)]; exact h3

/-! ## C92 -/

/-- **C92, challenge exactly the false.** A validator that reaches a pending result, whose service answers with the (readable)
receipt and for which the event is old enough, submits a challenge if and only if the result is false. In either case it will not
look at the event again. -/
theorem C92_challenges_exactly_the_false_partial (nd : Node) (s : State W) (finalised : Nat) (p : Pending) (r : Receipt) (current : Nat)
    (hn : nextToValidate nd s finalised = some p) (hs : Sees readJson nd p.id r current) (hr : Readable r p.id)
    (hc : nd.cfg.minConfs ≤ confirmations current r.block) :
    ∃ st, validateStep readJson code nd s finalised = .ok (some (nd.validated.getD [] ++ [p.id]), st) ∧
      (States_false code nd.cfg r p → st = some (.challenge p.id nd.me p.counter nd.me true)) ∧
      (¬ States_false code nd.cfg r p → st = none) := by
  unfold validateStep
  rw [hn]
  dsimp only
  rcases verdict_truth hs hr with ⟨e, hg, hv⟩ | ⟨hg, hv⟩
  · rw [hv, if_neg (by omega)]
    simp only [Out.bind, reduceCtorEq, if_false]
    refine ⟨_, rfl, ?_, ?_⟩
    · intro hf
      have : challengesCoded ⟨p.check.result, p.check.event.payload⟩ ⟨.ok, code (some e)⟩ = true := by
        unfold challengesCoded
        rw [if_neg]
        rintro (⟨h1, h2⟩ | ⟨h1, -⟩)
        · rcases hf with ⟨-, h3⟩ | ⟨h3, -⟩
          · exact h3 ⟨e, hg, h2.symm⟩
          · exact h3 h1.symm
        · cases h1
      rw [if_pos this]
    · intro hf
      have : challengesCoded ⟨p.check.result, p.check.event.payload⟩ ⟨.ok, code (some e)⟩ = false := by
        unfold challengesCoded
        rw [if_pos]
        left
        have hok : p.check.result = .ok := by
          by_contra hne; exact hf (.inr ⟨hne, e, hg⟩)
        refine ⟨hok.symm, ?_⟩
        by_contra hne
        refine hf (.inl ⟨hok, ?_⟩)
        rintro ⟨e', hg', he'⟩
        rw [hg.unique hg'] at hne
        exact hne he'.symm
      rw [if_neg (by rw [this]; simp)]
  · rw [hv]
    simp only [Out.bind, reduceCtorEq, if_false]
    refine ⟨_, rfl, ?_, ?_⟩
    · intro hf
      have hok : p.check.result = .ok := by
        rcases hf with ⟨h, -⟩ | ⟨-, h⟩
        · exact h
        · exact absurd h hg
      have : challengesCoded ⟨p.check.result, p.check.event.payload⟩ ⟨.invalid, code none⟩ = true := by
        unfold challengesCoded
        rw [hok, if_neg (by simp)]
        simp
      rw [if_pos this]
    · intro hf
      have hne : p.check.result ≠ .ok := by
        intro h; exact hf (.inl ⟨h, fun ⟨e, he, _⟩ => hg ⟨e, he⟩⟩)
      have : challengesCoded ⟨p.check.result, p.check.event.payload⟩ ⟨.invalid, code none⟩ = false := by
        unfold challengesCoded
        by_cases h : ((CheckResult.invalid = p.check.result ∧ code none = p.check.event.payload) ∨
            (CheckResult.invalid = .invalid ∧ p.check.result = .invalid))
        · rw [if_pos h]
        · rw [if_neg h]; simp [hne]
      rw [if_neg (by rw [this]; simp)]

/-- **C92, what an honest primary submits is true.** The result an honest primary submits is not false, and it names the primary
and the event at the head of the queue. So by the theorem above no honest validator that sees the same receipt challenges it. -/
theorem C92_honest_result_is_true (nd : Node) (s : State W) (block finalised : Nat) (u : Unchecked) (r : Receipt) (current : Nat)
    (hn : nextToCheck s finalised = some u) (hs : Sees readJson nd u.id r current) (hr : Readable r u.id) (st : Step W)
    (h : checkStep readJson code nd s block finalised = .ok (some st)) :
    ∃ chk dataOk, st = .submit chk u.counter nd.me dataOk true ∧ chk.event.id = u.id ∧ chk.checkedBy = nd.me ∧
      (chk.result = .ok ∨ chk.result = .invalid) ∧
      ∀ counter b chk', chk'.event = chk.event → chk'.result = chk.result → ¬ States_false code nd.cfg r ⟨chk', counter, b⟩ := by
  unfold checkStep at h
  rw [hn] at h
  dsimp only at h
  rcases verdict_truth hs hr with ⟨e, hg, hv⟩ | ⟨hg, hv⟩
  · rw [hv] at h
    by_cases hc : confirmations current r.block < nd.cfg.minConfs
    · rw [if_pos hc] at h; simp [Out.bind] at h
    · rw [if_neg hc] at h
      simp only [Out.bind, reduceCtorEq, or_self, if_false, Out.ok.injEq, Option.some.injEq] at h
      subst h
      refine ⟨_, _, rfl, rfl, rfl, .inl rfl, ?_⟩
      intro counter b chk' hev hres
      rintro (⟨-, hf⟩ | ⟨hf, -⟩)
      · refine hf ⟨e, ?_, ?_⟩
        · simp only [Pending.id, hev]; exact hg
        · simp [hev]
      · exact hf hres
  · rw [hv] at h
    simp only [Out.bind, reduceCtorEq, or_self, if_false, Out.ok.injEq, Option.some.injEq] at h
    subst h
    refine ⟨_, _, rfl, rfl, rfl, .inr rfl, ?_⟩
    intro counter b chk' hev hres
    rintro (⟨hf, -⟩ | ⟨-, e, hf⟩)
    · rw [hres] at hf; cases hf
    · simp only [Pending.id, hev] at hf; exact hg ⟨e, hf⟩

/-- One challenge by another validator: the challenger is recorded unless it is already, or the list is full; nothing else that
matters changes. -/
theorem challenge_run_step (handler : EthEvent → W → W × Bool) (s : State W) (p : Pending) (hp : p ∈ s.pending)
    (hu : (s.pending.map Pending.id).Nodup) (h : Nat) (hv : Avn.isValidator s.validators h = true) (hne : p.check.checkedBy ≠ h) :
    let s' := step handler s (.challenge p.id h p.counter h true)
    s'.pending = s.pending ∧ s'.validators = s.validators ∧ s'.quorumFactor = s.quorumFactor ∧ s'.processed = s.processed ∧
      (∀ x ∈ s'.log, x ∈ s.log ∨ ∃ b id a, x = (b, Obs.challenged id a)) ∧
      (∀ a ∈ s.challenges p.id, a ∈ s'.challenges p.id) ∧ (s.challenges p.id).length ≤ (s'.challenges p.id).length ∧
      (h ∈ s'.challenges p.id ∨ 50 ≤ (s'.challenges p.id).length) := by
  intro s'
  have hfind : s.pending.reverse.find? (fun q => q.id == p.id && q.counter == p.counter) = some p := by
    cases hf : s.pending.reverse.find? (fun q => q.id == p.id && q.counter == p.counter) with
    | none =>
      rw [List.find?_eq_none] at hf
      exact absurd (by simp) (hf p (by simpa using hp))
    | some q =>
      have h1 := List.find?_some hf
      have h2 := List.mem_of_find?_eq_some hf
      simp only [Bool.and_eq_true, beq_iff_eq] at h1
      simp only [List.mem_reverse] at h2
      rw [List.inj_on_of_nodup_map hu h2 hp h1.1]
  have hval : EthEvents.validChallenge s p.id h p.counter h true = true := by
    unfold EthEvents.validChallenge
    simp only [beq_self_eq_true, Bool.and_true, Bool.and_eq_true, hv, and_true, List.any_eq_true]
    exact ⟨p, hp, by simp⟩
  have hs' : s' = EthEvents.commit s (EthEvents.challengeEvent s p.id h p.counter) := by
    simp only [s', step]; rw [if_pos hval]
  unfold EthEvents.challengeEvent at hs'
  rw [if_neg (by rw [hv]; simp), hfind] at hs'
  dsimp only at hs'
  rw [if_neg hne] at hs'
  by_cases hin : h ∈ s.challenges p.id
  · rw [if_pos hin] at hs'
    have : s' = s := hs'
    rw [this]
    exact ⟨rfl, rfl, rfl, rfl, fun x hx => .inl hx, fun a ha => ha, le_refl _, .inl hin⟩
  · rw [if_neg hin] at hs'
    have : s' = EthEvents.emit { s with challenges := upd s.challenges p.id (EthEvents.pushBounded EthEvents.maxChallenges (s.challenges p.id) h) } [.challenged p.id h] := hs'
    rw [this]
    have hch : (EthEvents.emit { s with challenges := upd s.challenges p.id (EthEvents.pushBounded EthEvents.maxChallenges (s.challenges p.id) h) } [.challenged p.id h]).challenges p.id =
        EthEvents.pushBounded EthEvents.maxChallenges (s.challenges p.id) h := by
      simp [EthEvents.emit, upd_same]
    rw [hch]
    refine ⟨rfl, rfl, rfl, rfl, ?_, ?_, ?_, ?_⟩
    · intro x hx
      simp only [EthEvents.emit, List.mem_append, List.map_cons, List.map_nil, List.mem_singleton] at hx
      rcases hx with hx | rfl
      · exact .inl hx
      · exact .inr ⟨_, _, _, rfl⟩
    · intro a ha; unfold EthEvents.pushBounded; split_ifs <;> simp [ha]
    · unfold EthEvents.pushBounded; split_ifs <;> simp
    · unfold EthEvents.pushBounded
      by_cases hlt : (s.challenges p.id).length < EthEvents.maxChallenges
      · rw [if_pos hlt]; left; simp
      · rw [if_neg hlt]; right; simp only [EthEvents.maxChallenges] at hlt; omega

theorem challenge_run (handler : EthEvent → W → W × Bool) (p : Pending) (hs : List Nat) : ∀ (s : State W), p ∈ s.pending →
    (s.pending.map Pending.id).Nodup → (∀ h ∈ hs, Avn.isValidator s.validators h = true ∧ p.check.checkedBy ≠ h) →
    let s' := run handler s (hs.map fun h => .challenge p.id h p.counter h true)
    s'.pending = s.pending ∧ s'.validators = s.validators ∧ s'.quorumFactor = s.quorumFactor ∧ s'.processed = s.processed ∧
      (∀ x ∈ s'.log, x ∈ s.log ∨ ∃ b id a, x = (b, Obs.challenged id a)) ∧
      (∀ a ∈ s.challenges p.id, a ∈ s'.challenges p.id) ∧ (s.challenges p.id).length ≤ (s'.challenges p.id).length ∧
      ((∀ h ∈ hs, h ∈ s'.challenges p.id) ∨ 50 ≤ (s'.challenges p.id).length) := by
  induction hs with
  | nil => intro s _ _ _; exact ⟨rfl, rfl, rfl, rfl, fun x hx => .inl hx, fun a ha => ha, le_refl _, .inl (by simp)⟩
  | cons h hs ih =>
    intro s hp hu hv
    obtain ⟨h1, h2, h3, h4, h5, h6, h7, h8⟩ := challenge_run_step handler s p hp hu h (hv h (by simp)).1 (hv h (by simp)).2
    obtain ⟨g1, g2, g3, g4, g5, g6, g7, g8⟩ := ih (step handler s (.challenge p.id h p.counter h true)) (by rw [h1]; exact hp)
      (by rw [h1]; exact hu) (fun x hx => by rw [h2]; exact hv x (by simp [hx]))
    refine ⟨g1.trans h1, g2.trans h2, g3.trans h3, g4.trans h4, ?_, fun a ha => g6 a (h6 a ha), le_trans h7 g7, ?_⟩
    · intro x hx
      rcases g5 x hx with hx | hx
      · exact h5 x hx
      · exact .inr hx
    · rcases h8 with h8 | h8
      · rcases g8 with g8 | g8
        · left; intro x hx
          rcases List.mem_cons.1 hx with rfl | hx
          · exact g6 _ h8
          · exact g8 x hx
        · exact .inr g8
      · exact .inr (le_trans h8 g7)

/-- **C92, a challenged result has no effect.** When a number of distinct validators, other than the one who submitted the result,
submit the challenge of their worker, and they are more than both thresholds (of which at most 50 count), then processing the
event delivers nothing, and the submitter is reported. -/
theorem C92_challenged_result_has_no_effect (g : EthEvents.Config W) (handler : EthEvent → W → W × Bool) (steps : List (Step W))
    (p : Pending) (hp : p ∈ (g.after handler steps).pending) (hs : List Nat) (hnd : hs.Nodup)
    (hv : ∀ h ∈ hs, Avn.isValidator (g.after handler steps).validators h = true ∧ p.check.checkedBy ≠ h)
    (hmany : max p.check.minVotes ((g.after handler steps).validators.length / (g.after handler steps).quorumFactor) < min hs.length 50)
    (block named : Nat) (w : W) (hb : p.check.readyAfter < block)
    (hn : Avn.isValidator (g.after handler steps).validators named = true) :
    let s' := g.after handler (steps ++ (hs.map fun h => .challenge p.id h p.counter h true) ++
      [.environment block (g.after handler steps).validators w, .process p.id p.counter named true])
    s'.world = w ∧ (∀ b e, (b, Obs.handled e) ∈ s'.log → (b, Obs.handled e) ∈ (g.after handler steps).log) ∧
      (block, Obs.offence [p.check.checkedBy]) ∈ s'.log ∧ p.id ∉ s'.pending.map Pending.id := by
  intro s'
  have hinv := g.inv handler steps
  set s := g.after handler steps with hsdef
  have hu : (s.pending.map Pending.id).Nodup := by
    have := hinv.nodup
    unfold EthEvents.queued at this
    exact (List.nodup_append.1 this).2.1
  obtain ⟨h1, h2, h3, h4, h5, -, -, h8⟩ := challenge_run handler p hs s hp hu hv
  set sc := run handler s (hs.map fun h => .challenge p.id h p.counter h true) with hsc
  have hs' : s' = step handler { sc with block := block, validators := s.validators, world := w } (.process p.id p.counter named true) := by
    simp only [s', EthEvents.Config.after, run, List.foldl_append, List.foldl_cons, List.foldl_nil]
    rfl
  have hlen : min hs.length 50 ≤ (sc.challenges p.id).length := by
    rcases h8 with h8 | h8
    · have : hs.length ≤ (sc.challenges p.id).length := (hnd.subperm h8).length_le
      omega
    · omega
  have hlast : EthEvents.lastPending sc.pending p.id = some p := by
    rw [h1]
    unfold EthEvents.lastPending
    cases hf : s.pending.reverse.find? (fun q => q.id == p.id) with
    | none =>
      rw [List.find?_eq_none] at hf
      exact absurd (by simp) (hf p (by simpa using hp))
    | some q =>
      have e1 := List.find?_some hf
      have e2 := List.mem_of_find?_eq_some hf
      simp only [beq_iff_eq] at e1
      simp only [List.mem_reverse] at e2
      rw [List.inj_on_of_nodup_map hu e2 hp e1]
  set t : State W := { sc with block := block, validators := s.validators, world := w } with ht
  have hcs : EthEvents.challengeSuccessful t p.check = true := by
    unfold EthEvents.challengeSuccessful
    simp only [decide_eq_true_eq]
    show max p.check.minVotes (s.validators.length / sc.quorumFactor) < (sc.challenges p.id).length
    rw [h3]; omega
  have hvp : EthEvents.validProcess t p.id p.counter named true = true := by
    unfold EthEvents.validProcess
    have : Avn.isValidator t.validators named = true := hn
    rw [this]
    simp only [Bool.and_true, List.any_eq_true]
    refine ⟨p, ?_, by simp⟩
    show p ∈ sc.pending
    rw [h1]; exact hp
  have hproc : s' = EthEvents.emit (EthEvents.settle t p p.id named)
      [.rejected p.id p.check.result (EthEvents.challengeSuccessful t p.check)] := by
    rw [hs']
    show (if EthEvents.validProcess t p.id p.counter named true = true then
      EthEvents.commit t (EthEvents.processEvent handler t p.id named) else t) = _
    rw [if_pos hvp]
    unfold EthEvents.processEvent
    rw [if_neg (by have : Avn.isValidator t.validators named = true := hn
                   rw [this]; simp)]
    rw [show EthEvents.lastPending t.pending p.id = some p from hlast]
    dsimp only
    rw [if_neg (by show ¬ block ≤ p.check.readyAfter; omega), if_neg (by rw [hcs]; simp)]
    rfl
  rw [hproc]
  refine ⟨rfl, ?_, ?_, ?_⟩
  · intro b e hx
    rw [EthEvents.refused_log] at hx
    rcases List.mem_append.1 hx with hx | hx
    · have hx' : (b, Obs.handled e) ∈ sc.log := hx
      rcases h5 _ hx' with hx' | ⟨_, _, _, he⟩
      · exact hx'
      · cases he
    · exfalso
      unfold EthEvents.settleNew at hx
      rw [if_pos hcs] at hx
      simp at hx
  · rw [EthEvents.refused_log]
    refine List.mem_append_right _ (List.mem_append_left _ ?_)
    unfold EthEvents.settleNew
    rw [if_pos hcs]
    simp [ht]
  · show p.id ∉ (EthEvents.removeLast sc.pending p.id).map Pending.id
    rw [h1]
    unfold EthEvents.removeLast
    rw [List.map_reverse, List.mem_reverse]
    intro hmem
    obtain ⟨q, hq, hqid⟩ := List.mem_map.1 hmem
    have hurev : (s.pending.reverse.map Pending.id).Nodup := by rw [List.map_reverse]; exact List.nodup_reverse.2 hu
    have hq' := List.mem_of_mem_eraseP hq
    obtain ⟨a, l1, l2, _, ha, e1, e2⟩ := List.exists_of_eraseP (p := fun q : Pending => q.id == p.id) (by simpa using hp : p ∈ s.pending.reverse) (by simp)
    rw [e2] at hq
    rw [e1] at hurev
    simp only [beq_iff_eq] at ha
    simp only [List.map_append, List.map_cons] at hurev
    have hnd' := List.nodup_append.1 hurev
    rcases List.mem_append.1 hq with hq | hq
    · exact hnd'.2.2 _ (List.mem_map_of_mem hq) _ (List.mem_cons_self) (by rw [hqid, ha])
    · exact (List.nodup_cons.1 hnd'.2.1).1 (by rw [ha, ← hqid]; exact List.mem_map_of_mem hq)

/-- **C92, the full claim fails: a result submitted early escapes.** While the event is younger than `MinEthBlockConfirmation`
blocks, a validator reaching a pending result, however false, does not challenge it, notes it as validated all the same, and
never looks at it again. -/
theorem C92_early_result_is_never_challenged (nd : Node) (s : State W) (finalised : Nat) (p : Pending) (r : Receipt) (current : Nat)
    (e : EventData) (hn : nextToValidate nd s finalised = some p) (hs : Sees readJson nd p.id r current) (hr : Readable r p.id)
    (hg : Genuine nd.cfg r p.id e) (hc : confirmations current r.block < nd.cfg.minConfs) :
    ∃ l, validateStep readJson code nd s finalised = .ok (some l, none) ∧ p.id ∈ l ∧
      ∀ (s' : State W) fin q l', nextToValidate { nd with validated := some (l ++ l') } s' fin = some q → q.id ≠ p.id := by
  refine ⟨nd.validated.getD [] ++ [p.id], ?_, by simp, ?_⟩
  · unfold validateStep
    rw [hn]
    dsimp only
    rcases verdict_truth hs hr with ⟨e', hg', hv⟩ | ⟨hg', hv⟩
    · rw [hv, if_pos hc]
      simp only [Out.bind, reduceCtorEq, if_false, challengesCoded, false_and, or_false]
      split_ifs <;> simp_all
    · exact absurd ⟨e, hg⟩ hg'
  · intro s' fin q l' hq hid
    have := List.find?_some hq
    simp only [Bool.and_eq_true] at this
    have h1 := this.1
    split_ifs at h1
    simp [hid] at h1

/-! ### Concrete cases -/

/-- Four validators, production filter. -/
def exChain : EthEvents.Config Unit where
  quorumFactor := 3
  period := 60
  lifts := []
  processed := fun _ => none
  validators := [⟨5, 5⟩, ⟨6, 6⟩, ⟨7, 7⟩, ⟨8, 8⟩]
  filter := [.nftTransferTo, .nftEndBatchListing]
  world := ()
  distinct := by decide
  factor := by decide

/-- The event is announced and the primary of block 3 falsely calls it invalid. -/
def exSteps : List (Step Unit) :=
  [.environment 3 exChain.validators (), .addLog .nftEndBatchListing 77 2,
   .submit ⟨⟨exId, 0⟩, .invalid, 8, 3, 0, 0⟩ 1 8 true true]

/-- The false result. -/
def exPending : Pending := ⟨⟨⟨exId, 0⟩, .invalid, 8, 3, 63, 1⟩, 1, 3⟩

/-- Two of the other validators overturn it: the hypotheses of `C92_challenged_result_has_no_effect` are met. -/
example : exPending ∈ (exChain.after (fun _ w => (w, true)) exSteps).pending ∧
    (∀ h ∈ [5, 6], Avn.isValidator (exChain.after (fun _ w => (w, true)) exSteps).validators h = true ∧ exPending.check.checkedBy ≠ h) ∧
    max exPending.check.minVotes ((exChain.after (fun _ w => (w, true)) exSteps).validators.length /
      (exChain.after (fun _ w => (w, true)) exSteps).quorumFactor) < min [5, 6].length 50 := by
  decide +kernel

/-- A validator that sees the genuine receipt challenges it: the hypotheses of the first theorem are met. -/
example : ∃ (readJson : List UInt8 → Option Json) (nd : Node) (r : Receipt),
    nextToValidate nd (exChain.after (fun _ w => (w, true)) exSteps) 3 = some exPending ∧ Sees readJson nd exPending.id r 120 ∧
    Readable r exPending.id ∧ nd.cfg.minConfs ≤ confirmations 120 r.block ∧ States_false code nd.cfg r exPending := by
  obtain ⟨readJson, body, a⟩ := answer_exists ⟨some 1, some 100, [exLog]⟩
    (fun l hl => exLog_wf l (by simp at hl; simp [hl])) (by simp) 120
  refine ⟨readJson, ⟨5, exCfg, fun _ => some body, none⟩, _, ?_, ⟨body, rfl, a⟩, ?_, (by decide : 20 ≤ confirmations 120 (some 100)),
    .inr ⟨by decide, .nftEndBatchListing ⟨5⟩, rfl, exLog, ⟨[], [], rfl, ⟨_, _, rfl, exSig⟩, by simp⟩, exRecognised, exHolds⟩⟩
  · have : (exChain.after (fun _ w => (w, true)) exSteps).pending = [exPending] := by decide +kernel
    unfold nextToValidate
    rw [this]
    rfl
  · rintro ⟨-, pre, l, post, h1, h2, -⟩
    have : l ∈ [exLog] := by show l ∈ (⟨some 1, some 100, [exLog]⟩ : Receipt).logs; rw [h1]; simp
    rw [List.mem_singleton] at this
    subst this
    exact absurd h2 (by decide)

end Verif.EventCheck
