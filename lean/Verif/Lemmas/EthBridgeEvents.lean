import Verif.Model.EthBridgeEvents
import Mathlib.Tactic.SplitIfs
import Mathlib.Data.List.Nodup
import Mathlib.Data.List.Perm.Basic
import Mathlib.Data.List.Chain

namespace Verif.EthBridge

open Verif.Events

/-- Hashes of the events handed to the runtime, in order. -/
def handledHashes (log : List Obs) : List Nat :=
  log.filterMap (fun | .handled e => some e.txHash | _ => none)

/-- Partitions processed, in order. -/
def approvedOf (log : List Obs) : List Partition :=
  log.filterMap (fun | .approved p => some p | _ => none)

/-- Block votes cast, in order. -/
def blockVotesOf (log : List Obs) : List (Nat × Nat) :=
  log.filterMap (fun | .blockVote a b => some (a, b) | _ => none)

@[simp] theorem handledHashes_append (a b : List Obs) :
    handledHashes (a ++ b) = handledHashes a ++ handledHashes b := by simp [handledHashes]
@[simp] theorem approvedOf_append (a b : List Obs) : approvedOf (a ++ b) = approvedOf a ++ approvedOf b := by
  simp [approvedOf]
@[simp] theorem blockVotesOf_append (a b : List Obs) :
    blockVotesOf (a ++ b) = blockVotesOf a ++ blockVotesOf b := by simp [blockVotesOf]

variable {W : Type} (handler : W → EthEvent → W × Bool)

/-- How processing relates two states: the log grows, no processed marker disappears, and every event handed over in
between was unmarked before and is marked after, each hash once. -/
def Grow (s s' : State W) : Prop :=
  ∃ new, s'.log = s.log ++ new ∧
    (∀ h, (s.processed h).isSome = true → (s'.processed h).isSome = true) ∧
    (handledHashes new).Nodup ∧
    (∀ h ∈ handledHashes new, s.processed h = none ∧ (s'.processed h).isSome = true)

theorem Grow.refl (s : State W) : Grow s s := ⟨[], by simp [handledHashes]⟩

theorem Grow.trans {s t u : State W} (h1 : Grow s t) (h2 : Grow t u) : Grow s u := by
  obtain ⟨n1, l1, m1, d1, p1⟩ := h1
  obtain ⟨n2, l2, m2, d2, p2⟩ := h2
  refine ⟨n1 ++ n2, by simp [l2, l1], fun h hh => m2 h (m1 h hh), ?_, ?_⟩
  · rw [handledHashes_append, List.nodup_append]
    refine ⟨d1, d2, fun a ha b hb hab => ?_⟩
    subst hab
    have := (p1 a ha).2
    simp [(p2 a hb).1] at this
  · intro h hh
    rw [handledHashes_append, List.mem_append] at hh
    rcases hh with hh | hh
    · exact ⟨(p1 h hh).1, m2 h (p1 h hh).2⟩
    · refine ⟨?_, (p2 h hh).2⟩
      cases hs : s.processed h with
      | none => rfl
      | some v =>
        have := m1 h (by simp [hs])
        simp [(p2 h hh).1] at this

/-- A change that adds no `handled` entry and loses no marker. -/
theorem Grow.of_quiet {s s' : State W} (new : List Obs) (hl : s'.log = s.log ++ new)
    (hn : handledHashes new = []) (hp : ∀ h, (s.processed h).isSome = true → (s'.processed h).isSome = true) :
    Grow s s' := ⟨new, hl, hp, by simp [hn], by simp [hn]⟩

theorem addProcessedEvent_spec {s s' : State W} {e : EthEvent} {acc : Bool}
    (h : addProcessedEvent s e acc = some s') :
    ∃ id, s' = { s with processed := upd s.processed e.txHash (some (id, acc)) } := by
  unfold addProcessedEvent at h
  by_cases h1 : alreadyAccepted s e.txHash = true
  · simp [h1] at h
  · simp only [h1, if_false, Bool.false_eq_true] at h
    generalize (if legacyLiftSignatures.contains e.signature = true then some ValidEvent.lifted
      else tryFrom e.signature) = o at h
    cases o with
    | none => simp at h
    | some id => exact ⟨id, by simpa using h.symm⟩

/-- The fields event processing leaves alone. -/
def Frame (s s' : State W) : Prop :=
  s'.active = s.active ∧ s'.votes = s.votes ∧ s'.authors = s.authors ∧ s'.queue = s.queue ∧
  s'.submitted = s.submitted ∧ s'.instanceValid = s.instanceValid ∧ s'.network = s.network ∧
  s'.rangeSize = s.rangeSize

theorem Frame.refl (s : State W) : Frame s s := by simp [Frame]
theorem Frame.trans {s t u : State W} (h1 : Frame s t) (h2 : Frame t u) : Frame s u := by
  unfold Frame at *; grind

/-- Log entries event processing can add: outcomes of the given events. -/
def OutcomeOf (evs : List Discovered) (o : Obs) : Prop :=
  ∃ d ∈ evs, o = .handled d.event ∨ o = .accepted d.event ∨ o = .rejected d.event

theorem processEvent_spec {s s' : State W} {n : Nat} {e : EthEvent}
    (h : processEvent handler s n e = some s') :
    (s.processed e.txHash) = none ∧ Frame s s' ∧ Grow s s' ∧
      ∃ new, s'.log = s.log ++ new ∧ ∀ o ∈ new, o = .handled e ∨ o = .accepted e ∨ o = .rejected e := by
  unfold processEvent at h
  by_cases h1 : processedEventExists s n e = true
  · simp [h1] at h
  · simp only [h1, if_false, Bool.false_eq_true] at h
    cases h2 : addProcessedEventOn s n e true with
    | none => simp [h2] at h
    | some s1 =>
      simp only [h2, Option.some.injEq] at h
      have hv : s.instanceValid = true ∧ s.network = n := by
        unfold addProcessedEventOn at h2
        by_cases hc : (s.instanceValid && s.network == n) = true
        · simpa using hc
        · simp [hc] at h2
      have hnone : s.processed e.txHash = none := by
        unfold processedEventExists at h1
        simpa [hv.1, hv.2] using h1
      have h3 : addProcessedEvent s e true = some s1 := by
        unfold addProcessedEventOn at h2
        simpa [hv.1, hv.2] using h2
      obtain ⟨id, rfl⟩ := addProcessedEvent_spec h3
      refine ⟨hnone, ?_, ?_, ?_⟩
      · subst h; simp [Frame]
      · subst h
        refine ⟨_, rfl, ?_, ?_, ?_⟩
        · intro h hh
          simp only [upd_apply]
          by_cases hh2 : h = e.txHash <;> simp [hh2, hh]
        · cases (handler s.world e).2 <;> simp [handledHashes]
        · intro h hh
          have : h = e.txHash := by
            cases hb : (handler s.world e).2 <;> simpa [handledHashes, hb] using hh
          subst this
          simp [hnone]
      · subst h
        refine ⟨_, rfl, ?_⟩
        intro o ho
        cases hb : (handler s.world e).2 <;> simp [hb] at ho <;> grind

theorem processDiscovered_spec (n : Nat) (a : Active) (s : State W) (d : Discovered) :
    Frame s (processDiscovered handler n a s d) ∧ Grow s (processDiscovered handler n a s d) ∧
      ∃ new, (processDiscovered handler n a s d).log = s.log ++ new ∧ ∀ o ∈ new, OutcomeOf [d] o := by
  have hq : ∀ s' : State W, s' = { s with log := s.log ++ [.rejected d.event] } →
      Frame s s' ∧ Grow s s' ∧ ∃ new, s'.log = s.log ++ new ∧ ∀ o ∈ new, OutcomeOf [d] o := by
    rintro s' rfl
    refine ⟨by simp [Frame], Grow.of_quiet [.rejected d.event] rfl (by simp [handledHashes]) (by simp), _, rfl, ?_⟩
    simp [OutcomeOf]
  have hs : Frame s s ∧ Grow s s ∧ ∃ new, s.log = s.log ++ new ∧ ∀ o ∈ new, OutcomeOf [d] o :=
    ⟨Frame.refl s, Grow.refl s, [], by simp⟩
  unfold processDiscovered
  cases tryFrom d.event.signature with
  | none => exact hs
  | some kind =>
    simp only
    by_cases h1 : a.filter.contains kind = true
    · simp only [h1, if_true]
      by_cases h2 : d.block > a.range.endBlock
      · simp only [h2, if_true]; exact hq _ rfl
      · simp only [h2, if_false]
        cases h3 : processEvent handler s n d.event with
        | none => exact hq _ rfl
        | some s' =>
          obtain ⟨_, f, g, new, hl, ho⟩ := processEvent_spec handler h3
          exact ⟨f, g, new, hl, fun o h => ⟨d, by simp, ho o h⟩⟩
    · simp only [h1, if_false, Bool.false_eq_true]; exact hs

theorem processFold_spec (n : Nat) (a : Active) (evs : List Discovered) (s : State W) :
    Frame s (evs.foldl (processDiscovered handler n a) s) ∧
      Grow s (evs.foldl (processDiscovered handler n a) s) ∧
      ∃ new, (evs.foldl (processDiscovered handler n a) s).log = s.log ++ new ∧ ∀ o ∈ new, OutcomeOf evs o := by
  induction evs generalizing s with
  | nil => exact ⟨Frame.refl s, Grow.refl s, [], by simp⟩
  | cons d evs ih =>
    simp only [List.foldl_cons]
    obtain ⟨f1, g1, n1, l1, o1⟩ := processDiscovered_spec handler n a s d
    obtain ⟨f2, g2, n2, l2, o2⟩ := ih (processDiscovered handler n a s d)
    refine ⟨f1.trans f2, g1.trans g2, n1 ++ n2, by simp [l2, l1], ?_⟩
    intro o ho
    rcases List.mem_append.1 ho with ho | ho
    · obtain ⟨d', hd, h⟩ := o1 o ho
      exact ⟨d', by simp_all, h⟩
    · obtain ⟨d', hd, h⟩ := o2 o ho
      exact ⟨d', by simp_all, h⟩

/-- Effect of processing a partition. -/
theorem processPartition_spec (s : State W) (n : Nat) (a : Active) (p : Partition) :
    let s' := processPartition handler s n a p
    s'.votes = [] ∧ s'.active = s.active ∧ s'.authors = s.authors ∧ s'.queue = s.queue ∧
      s'.submitted = s.submitted ∧ s'.instanceValid = s.instanceValid ∧ s'.network = s.network ∧
      s'.rangeSize = s.rangeSize ∧ Grow s s' ∧
      ∃ new, s'.log = s.log ++ new ∧ ∀ o ∈ new, OutcomeOf p.events o := by
  obtain ⟨f, g, new, hl, ho⟩ :=
    processFold_spec handler n a p.events { s with votes := s.votes.filter (fun e => e.1 ≠ p) }
  obtain ⟨f1, -, f3, f4, f5, f6, f7, f8⟩ := f
  exact ⟨rfl, f1, f3, f4, f5, f6, f7, f8, g, new, hl, ho⟩

/-- Everything a successful event vote does. -/
theorem submitEvents_ok {s : State W} {a : Nat} {p : Partition} (h : (submitEvents handler s a p).2 = none) :
    ∃ act vs, s.instanceValid = true ∧ s.active = some act ∧ p.range = act.range ∧ p.number = act.partition ∧
      hasVoted s.votes a = false ∧ tryInsert votesLimit (lookupVotes s.votes p) a = some vs ∧
      ((vs.length < quorum s.authors ∧
          (submitEvents handler s a p).1 =
            { s with log := s.log ++ [.eventVote a p], votes := setVotes s.votes p vs }) ∨
        (quorum s.authors ≤ vs.length ∧
          (submitEvents handler s a p).1 = advancePartition
            (processPartition handler { s with log := s.log ++ [.eventVote a p] ++ [.approved p] } s.network act p)
            act p)) := by
  unfold submitEvents at h ⊢
  cases hi : s.instanceValid with
  | false => simp [hi] at h
  | true =>
    simp only [hi, Bool.true_eq_false, if_false] at h ⊢
    cases ha : s.active with
    | none => simp [ha] at h
    | some act =>
      simp only [ha] at h ⊢
      by_cases hr : p.range ≠ act.range ∨ p.number ≠ act.partition
      · simp [hr] at h
      · simp only [hr, if_false] at h ⊢
        by_cases hv : hasVoted s.votes a = true
        · simp [hv] at h
        · simp only [hv, if_false, Bool.false_eq_true] at h ⊢
          cases ht : tryInsert votesLimit (lookupVotes s.votes p) a with
          | none => simp [ht] at h
          | some vs =>
            have hr' : p.range = act.range ∧ p.number = act.partition := by
              constructor
              · exact Classical.byContradiction (fun hn => hr (Or.inl hn))
              · exact Classical.byContradiction (fun hn => hr (Or.inr hn))
            refine ⟨act, vs, by simp, rfl, hr'.1, hr'.2, by simp, rfl, ?_⟩
            by_cases hq : vs.length < quorum s.authors
            · left; simp [hq]
            · right; simp only [hq, if_false]; exact ⟨by omega, by simp⟩

/-- Everything a successful block vote does. -/
theorem submitBlock_ok {s : State W} {a l : Nat} (h : (submitBlock s a l).2 = none) :
    ∃ b vs, s.instanceValid = true ∧ s.active = none ∧ hasVoted s.submitted a = false ∧
      computeStartBlock l s.rangeSize = some b ∧
      tryInsert votesLimit (lookupVotes s.submitted b) a = some vs ∧
      ((¬ supermajority s.authors ≤
            (((setVotes s.submitted b vs).map (fun e => (e.1, e.2.length))).map Prod.snd).sum ∧
          (submitBlock s a l).1 =
            { s with submitted := setVotes s.submitted b vs, log := s.log ++ [.blockVote a b] }) ∨
        (supermajority s.authors ≤
            (((setVotes s.submitted b vs).map (fun e => (e.1, e.2.length))).map Prod.snd).sum ∧
          ∃ r : Range,
            (match selectBlock (quorum s.authors) (supermajority s.authors)
                (sortPairs ((setVotes s.submitted b vs).map (fun e => (e.1, e.2.length)))) with
              | some b => { start := b, length := s.rangeSize }
              | none => { start := 0, length := 0 }) = r ∧
          (submitBlock s a l).1 =
            { s with
              submitted := []
              queue := []
              active := some { range := r, partition := 0, filter := corePrimaryFilter, additional := s.queue }
              log := s.log ++ [.blockVote a b] ++ [.rangeSelected r] })) := by
  unfold submitBlock at h ⊢
  cases hi : s.instanceValid with
  | false => simp [hi] at h
  | true =>
    simp only [hi, Bool.true_eq_false, if_false] at h ⊢
    cases ha : s.active with
    | some act => simp [ha] at h
    | none =>
      simp only [ha, Option.isSome_none, Bool.false_eq_true, if_false] at h ⊢
      by_cases hv : hasVoted s.submitted a = true
      · simp [hv] at h
      · simp only [hv, if_false, Bool.false_eq_true] at h ⊢
        cases hc : computeStartBlock l s.rangeSize with
        | none => simp [hc] at h
        | some b =>
          simp only [hc] at h ⊢
          cases ht : tryInsert votesLimit (lookupVotes s.submitted b) a with
          | none => simp [ht] at h
          | some vs =>
            refine ⟨b, vs, by simp, by simp, by simp, rfl, ht, ?_⟩
            by_cases hq : supermajority s.authors ≤
                (((setVotes s.submitted b vs).map (fun e => (e.1, e.2.length))).map Prod.snd).sum
            · right; simp only [hq, if_true]; exact ⟨trivial, _, rfl, rfl⟩
            · left; simp only [hq, if_false]; simp

/-- What a successful administrative call does. -/
theorem admin_ok {s : State W} {keep : List Nat} {c : Admin} (h : (admin s keep c).2 = none) :
    (admin s keep c).1.processed = s.processed ∧ (admin s keep c).1.log = s.log ∧
    (admin s keep c).1.active = s.active ∧ (admin s keep c).1.submitted = s.submitted ∧
    (admin s keep c).1.authors = s.authors ∧ (admin s keep c).1.rangeSize = s.rangeSize ∧
    ((admin s keep c).1.votes = s.votes ∨ ∃ n, (admin s keep c).1.votes = clearVotes n keep s.votes) := by
  cases c with
  | queueAdditional hsh =>
    simp only [admin] at h ⊢
    by_cases h1 : alreadyAccepted s hsh = true
    · simp [h1] at h
    · simp only [h1, Bool.false_eq_true, if_false] at h ⊢
      cases h2 : tryInsert 16 s.queue hsh with
      | none => simp [h2] at h
      | some q => simp
  | restartDiscovery => simp [admin]; exact Or.inr ⟨100, rfl⟩
  | setInstance v n =>
    simp only [admin] at h ⊢
    cases v with
    | false => simp at h
    | true => simp; exact Or.inr ⟨101, rfl⟩

theorem migrateBatch_spec (n : Nat) (batch : List (EthEvent × Bool)) (s : State W) :
    Frame s (migrateBatch s n batch) ∧ (migrateBatch s n batch).log = s.log ∧
      ∀ h, (s.processed h).isSome = true → ((migrateBatch s n batch).processed h).isSome = true := by
  unfold migrateBatch
  induction batch generalizing s with
  | nil => simp [Frame]
  | cons e batch ih =>
    simp only [List.foldl_cons]
    have h1 : Frame s ((addProcessedEventOn s n e.1 e.2).getD s) ∧
        ((addProcessedEventOn s n e.1 e.2).getD s).log = s.log ∧
        ∀ h, (s.processed h).isSome = true →
          (((addProcessedEventOn s n e.1 e.2).getD s).processed h).isSome = true := by
      cases h2 : addProcessedEventOn s n e.1 e.2 with
      | none => simp [Frame]
      | some s1 =>
        unfold addProcessedEventOn at h2
        by_cases hc : (s.instanceValid && s.network == n) = true
        · simp only [hc, if_true] at h2
          obtain ⟨id, rfl⟩ := addProcessedEvent_spec h2
          refine ⟨by simp [Frame], rfl, ?_⟩
          intro h hh
          simp only [Option.getD_some, upd_apply]
          by_cases h3 : h = e.1.txHash <;> simp [h3, hh]
        · simp [hc] at h2
    obtain ⟨f, l, m⟩ := ih ((addProcessedEventOn s n e.1 e.2).getD s)
    exact ⟨h1.1.trans f, l.trans h1.2.1, fun h hh => m h (h1.2.2 h hh)⟩

/-- Exhaustive description of a step. -/
inductive View (s : State W) : Step W → State W → Prop
  | vote (a : Nat) (p : Partition) (act : Active) (vs : List Nat) (hauth : a ∈ s.authors)
      (hok : (submitEvents handler s a p).2 = none)
      (hact : s.active = some act) (hr : p.range = act.range) (hn : p.number = act.partition)
      (hv : hasVoted s.votes a = false) (hi : tryInsert votesLimit (lookupVotes s.votes p) a = some vs)
      (hq : vs.length < quorum s.authors) :
      View s (.submitEvents a p) { s with log := s.log ++ [.eventVote a p], votes := setVotes s.votes p vs }
  | approve (a : Nat) (p : Partition) (act : Active) (vs : List Nat) (s' : State W) (hauth : a ∈ s.authors)
      (hok : (submitEvents handler s a p).2 = none)
      (hact : s.active = some act) (hr : p.range = act.range) (hn : p.number = act.partition)
      (hv : hasVoted s.votes a = false) (hi : tryInsert votesLimit (lookupVotes s.votes p) a = some vs)
      (hq : quorum s.authors ≤ vs.length)
      (hvotes : s'.votes = []) (hauths : s'.authors = s.authors) (hsub : s'.submitted = s.submitted)
      (hact' : s'.active = some
        (if p.isLast then { range := act.range.next, partition := 0, filter := corePrimaryFilter, additional := s.queue }
          else { act with partition := min (act.partition + 1) maxU16 }))
      (hqueue : s'.queue = if p.isLast then [] else s.queue)
      (hgrow : Grow s s') (new : List Obs)
      (hlog : s'.log = s.log ++ ([.eventVote a p, .approved p] ++ new)) (hnew : ∀ o ∈ new, OutcomeOf p.events o) :
      View s (.submitEvents a p) s'
  | block (a l b : Nat) (vs : List Nat) (hauth : a ∈ s.authors) (hact : s.active = none)
      (hv : hasVoted s.submitted a = false) (hb : computeStartBlock l s.rangeSize = some b)
      (hi : tryInsert votesLimit (lookupVotes s.submitted b) a = some vs)
      (hq : ¬ supermajority s.authors ≤
            (((setVotes s.submitted b vs).map (fun e => (e.1, e.2.length))).map Prod.snd).sum) :
      View s (.submitBlock a l)
        { s with submitted := setVotes s.submitted b vs, log := s.log ++ [.blockVote a b] }
  | select (a l b : Nat) (vs : List Nat) (r : Range) (hauth : a ∈ s.authors) (hact : s.active = none)
      (hv : hasVoted s.submitted a = false) (hb : computeStartBlock l s.rangeSize = some b)
      (hi : tryInsert votesLimit (lookupVotes s.submitted b) a = some vs)
      (hq : supermajority s.authors ≤
            (((setVotes s.submitted b vs).map (fun e => (e.1, e.2.length))).map Prod.snd).sum)
      (hsel : (match selectBlock (quorum s.authors) (supermajority s.authors)
                (sortPairs ((setVotes s.submitted b vs).map (fun e => (e.1, e.2.length)))) with
              | some b => { start := b, length := s.rangeSize }
              | none => { start := 0, length := 0 }) = r) :
      View s (.submitBlock a l)
        { s with
          submitted := []
          queue := []
          active := some { range := r, partition := 0, filter := corePrimaryFilter, additional := s.queue }
          log := s.log ++ [.blockVote a b] ++ [.rangeSelected r] }
  | quiet (op : Step W) (s' : State W) (hlog : s'.log = s.log) (hact : s'.active = s.active)
      (hsub : s'.submitted = s.submitted)
      (hp : ∀ h, (s.processed h).isSome = true → (s'.processed h).isSome = true)
      (hvotes : s'.votes = s.votes ∨ ∃ n keep, s'.votes = clearVotes n keep s.votes) :
      View s op s'

theorem step_view (s : State W) (op : Step W) : View handler s op (step handler s op) := by
  have hid : ∀ op, View handler s op s := fun op => .quiet op s rfl rfl rfl (fun _ h => h) (.inl rfl)
  cases op with
  | submitEvents a p =>
    simp only [step]
    by_cases ha : isAuthor s a = true
    · simp only [ha, if_true, transactional]
      have ha' : a ∈ s.authors := by simpa [isAuthor] using ha
      cases hr : (submitEvents handler s a p).2 with
      | some e => simp; exact hid _
      | none =>
        simp only [Option.isSome_none, Bool.false_eq_true, if_false]
        obtain ⟨act, vs, h1, h2, h3, h4, h5, h6, h7⟩ := submitEvents_ok handler hr
        rcases h7 with ⟨hq, he⟩ | ⟨hq, he⟩
        · rw [he]; exact .vote a p act vs ha' hr h2 h3 h4 h5 h6 hq
        · rw [he]
          have hspec := processPartition_spec handler
            { s with log := s.log ++ [.eventVote a p] ++ [.approved p] } s.network act p
          simp only at hspec
          generalize processPartition handler
            { s with log := s.log ++ [.eventVote a p] ++ [.approved p] } s.network act p = S at hspec
          obtain ⟨p1, p2, p3, p4, p5, p6, p7, p8, p9, new, p10, p11⟩ := hspec
          have hg0 : Grow s { s with log := s.log ++ [.eventVote a p] ++ [.approved p] } :=
            Grow.of_quiet [.eventVote a p, .approved p] (by simp) (by simp [handledHashes]) (fun _ h => h)
          have hg : Grow s S := hg0.trans p9
          refine .approve a p act vs _ ha' hr h2 h3 h4 h5 h6 hq ?_ ?_ ?_ ?_ ?_ ?_ new ?_ p11
          · unfold advancePartition; cases p.isLast <;> simp [p1]
          · unfold advancePartition; cases p.isLast <;> simp [p3]
          · unfold advancePartition; cases p.isLast <;> simp [p5]
          · unfold advancePartition; cases p.isLast <;> simp [p4]
          · unfold advancePartition; cases p.isLast <;> simp [p4]
          · unfold advancePartition; cases p.isLast <;> exact hg
          · unfold advancePartition; cases p.isLast <;> simp [p10]
    · simp only [ha, Bool.false_eq_true, if_false]; exact hid _
  | submitBlock a l =>
    simp only [step]
    by_cases ha : isAuthor s a = true
    · simp only [ha, if_true, transactional]
      have ha' : a ∈ s.authors := by simpa [isAuthor] using ha
      cases hr : (submitBlock s a l).2 with
      | some e => simp; exact hid _
      | none =>
        simp only [Option.isSome_none, Bool.false_eq_true, if_false]
        obtain ⟨b, vs, h1, h2, h3, h4, h5, h6⟩ := submitBlock_ok hr
        rcases h6 with ⟨hq, he⟩ | ⟨hq, r, hsel, he⟩
        · rw [he]; exact .block a l b vs ha' h2 h3 h4 h5 hq
        · rw [he]; exact .select a l b vs r ha' h2 h3 h4 h5 hq hsel
    · simp only [ha, Bool.false_eq_true, if_false]; exact hid _
  | admin keep c =>
    simp only [step, transactional]
    cases hr : (admin s keep c).2 with
    | some e => simp; exact hid _
    | none =>
      simp only [Option.isSome_none, Bool.false_eq_true, if_false]
      obtain ⟨h1, h2, h3, h4, h5, h6, h7⟩ := admin_ok hr
      refine .quiet _ _ h2 h3 h4 (by simp [h1]) ?_
      rcases h7 with h7 | ⟨n, h7⟩
      · exact .inl h7
      · exact .inr ⟨n, keep, h7⟩
  | migrate n b =>
    obtain ⟨f, l, m⟩ := migrateBatch_spec n b s
    exact .quiet _ _ l f.1 f.2.2.2.2.1 m (.inl f.2.1)
  | addProcessed e acc =>
    simp only [step]
    cases h : addProcessedEvent s e acc with
    | none => exact hid _
    | some s' =>
      obtain ⟨id, rfl⟩ := addProcessedEvent_spec h
      refine .quiet _ _ rfl rfl rfl ?_ (.inl rfl)
      intro h hh
      simp only [Option.getD_some, upd_apply]
      by_cases h3 : h = e.txHash <;> simp [h3, hh]
  | newAuthors as => exact .quiet _ _ rfl rfl rfl (fun _ h => h) (.inl rfl)
  | external w => exact .quiet _ _ rfl rfl rfl (fun _ h => h) (.inl rfl)

theorem step_grow (s : State W) (op : Step W) : Grow s (step handler s op) := by
  have hv := step_view handler s op
  generalize step handler s op = s' at hv
  cases hv with
  | vote a p act vs => exact Grow.of_quiet [.eventVote a p] rfl (by simp [handledHashes]) (fun _ h => h)
  | approve a p act vs s' _ _ _ _ _ _ _ _ _ _ _ _ _ hg => exact hg
  | block a l b vs => exact Grow.of_quiet [.blockVote a b] rfl (by simp [handledHashes]) (fun _ h => h)
  | select a l b vs r =>
    exact Grow.of_quiet [.blockVote a b, .rangeSelected r] (by simp) (by simp [handledHashes]) (fun _ h => h)
  | quiet op s' hl _ _ hp _ => exact Grow.of_quiet [] (by simp [hl]) (by simp [handledHashes]) hp

theorem run_grow (s : State W) (ops : List (Step W)) : Grow s (run handler s ops) := by
  induction ops generalizing s with
  | nil => exact Grow.refl s
  | cons op ops ih => exact (step_grow handler s op).trans (ih _)

theorem run_append (s : State W) (a b : List (Step W)) : run handler s (a ++ b) = run handler (run handler s a) b := by
  simp [run]

theorem run_snoc (s : State W) (a : List (Step W)) (op : Step W) :
    run handler s (a ++ [op]) = step handler (run handler s a) op := by simp [run]

/-! ### Vote maps -/

theorem setVotes_flat {K : Type} [DecidableEq K] (m : List (K × List Nat)) (k : K) (a : Nat)
    (hn : (m.map Prod.fst).Nodup) :
    ((setVotes m k (lookupVotes m k ++ [a])).flatMap (fun e => e.2.map (fun v => (v, e.1)))).Perm
      ((a, k) :: m.flatMap (fun e => e.2.map (fun v => (v, e.1)))) := by
  induction m with
  | nil => simp [setVotes, lookupVotes]
  | cons e m ih =>
    simp only [List.map_cons, List.nodup_cons] at hn
    by_cases h : e.1 = k
    · have hl : lookupVotes (e :: m) k = e.2 := by simp [lookupVotes, h]
      simp only [setVotes, h, if_true, hl, List.flatMap_cons, List.map_append, List.map_cons, List.map_nil]
      rw [List.append_assoc]
      exact List.perm_middle
    · have hl : lookupVotes (e :: m) k = lookupVotes m k := by simp [lookupVotes, h]
      simp only [setVotes, h, if_false, hl, List.flatMap_cons]
      exact ((ih hn.2).append_left _).trans List.perm_middle

theorem setVotes_mem {K : Type} [DecidableEq K] (m : List (K × List Nat)) (k : K) (v : List Nat) (e : K × List Nat)
    (h : e ∈ setVotes m k v) : e = (k, v) ∨ e ∈ m := by
  induction m with
  | nil => simpa [setVotes] using h
  | cons x m ih =>
    by_cases hx : x.1 = k
    · simp only [setVotes, hx, if_true, List.mem_cons] at h
      rcases h with h | h <;> simp [h]
    · simp only [setVotes, hx, if_false, List.mem_cons] at h
      rcases h with h | h
      · simp [h]
      · rcases ih h with h | h <;> simp [h]

theorem setVotes_keys {K : Type} [DecidableEq K] (m : List (K × List Nat)) (k : K) (v : List Nat)
    (hn : (m.map Prod.fst).Nodup) : ((setVotes m k v).map Prod.fst).Nodup := by
  induction m with
  | nil => simp [setVotes]
  | cons x m ih =>
    simp only [List.map_cons, List.nodup_cons] at hn
    by_cases hx : x.1 = k
    · simp only [setVotes, hx, if_true, List.map_cons, List.nodup_cons]
      exact ⟨hx ▸ hn.1, hn.2⟩
    · simp only [setVotes, hx, if_false, List.map_cons, List.nodup_cons]
      refine ⟨?_, ih hn.2⟩
      intro hm
      obtain ⟨e, he, hk⟩ := List.mem_map.1 hm
      rcases setVotes_mem m k v e he with h | h
      · exact hx (by rw [← hk, h])
      · exact hn.1 (List.mem_map.2 ⟨e, h, hk⟩)

theorem lookupVotes_mem {K : Type} [DecidableEq K] (m : List (K × List Nat)) (k : K) (a : Nat)
    (h : a ∈ lookupVotes m k) : (k, lookupVotes m k) ∈ m := by
  unfold lookupVotes at h ⊢
  cases hf : m.find? (fun e => e.1 = k) with
  | none => simp [hf] at h
  | some e =>
    have hk := List.find?_some hf
    have hm := List.mem_of_find?_eq_some hf
    simp at hk
    subst hk
    exact hm

theorem hasVoted_false {K : Type} (m : List (K × List Nat)) (a : Nat) (h : hasVoted m a = false) :
    ∀ e ∈ m, a ∉ e.2 := by
  intro e he ha
  have : hasVoted m a = true := by
    unfold hasVoted
    exact List.any_eq_true.2 ⟨e, he, by simpa using ha⟩
  simp [this] at h

/-- A new voter's set is the old one plus the voter. -/
theorem tryInsert_new {K : Type} [DecidableEq K] {m : List (K × List Nat)} {k : K} {a n : Nat} {vs : List Nat}
    (hv : hasVoted m a = false) (hi : tryInsert n (lookupVotes m k) a = some vs) :
    vs = lookupVotes m k ++ [a] := by
  have hna : a ∉ lookupVotes m k := fun ha => hasVoted_false m a hv _ (lookupVotes_mem m k a ha) ha
  unfold tryInsert at hi
  simp only [hna, if_false] at hi
  by_cases hl : (lookupVotes m k).length < n
  · simpa [hl] using hi.symm
  · simp [hl] at hi

theorem clearVotes_sublist (n : Nat) (keep : List Nat) (m : List (Partition × List Nat)) :
    (clearVotes n keep m).Sublist m := by
  unfold clearVotes
  split
  · exact List.nil_sublist _
  · refine (List.take_sublist _ _).trans ?_
    have h1 : ((m.zipIdx.filter (fun e => keep.contains e.2)).map Prod.fst).Sublist (m.zipIdx.map Prod.fst) :=
      List.Sublist.map _ List.filter_sublist
    rwa [List.zipIdx_map_fst] at h1

/-- Votes of a map as (voter, key) pairs. -/
def flat {K : Type} (m : List (K × List Nat)) : List (Nat × K) := m.flatMap (fun e => e.2.map (fun v => (v, e.1)))

theorem mem_flat {K : Type} (m : List (K × List Nat)) (a : Nat) (k : K) :
    (a, k) ∈ flat m ↔ ∃ vs, (k, vs) ∈ m ∧ a ∈ vs := by
  unfold flat
  simp only [List.mem_flatMap, List.mem_map, Prod.mk.injEq, Prod.exists]
  constructor
  · rintro ⟨k', vs, hm, v, hv, rfl, rfl⟩; exact ⟨vs, hm, hv⟩
  · rintro ⟨vs, hm, hv⟩; exact ⟨k, vs, hm, a, hv, rfl, rfl⟩

theorem flat_sublist {K : Type} {m m' : List (K × List Nat)} (h : m'.Sublist m) : (flat m').Sublist (flat m) := by
  unfold flat
  induction h with
  | slnil => simp
  | cons a _ ih => simp only [List.flatMap_cons]; exact ih.trans (List.sublist_append_right _ _)
  | cons_cons a _ ih => simp only [List.flatMap_cons]; exact List.Sublist.append (List.Sublist.refl _) ih

/-- Every voter appears once in the map, every key once. -/
def MapInv {K : Type} (m : List (K × List Nat)) : Prop := (m.map Prod.fst).Nodup ∧ ((flat m).map Prod.fst).Nodup

theorem MapInv.insert {K : Type} [DecidableEq K] {m : List (K × List Nat)} {k : K} {a n : Nat} {vs : List Nat}
    (hm : MapInv m) (hv : hasVoted m a = false) (hi : tryInsert n (lookupVotes m k) a = some vs) :
    MapInv (setVotes m k vs) ∧ (flat (setVotes m k vs)).Perm ((a, k) :: flat m) := by
  have hvs := tryInsert_new hv hi
  subst hvs
  have hp := setVotes_flat m k a hm.1
  refine ⟨⟨setVotes_keys m k _ hm.1, ?_⟩, hp⟩
  have := hp.map Prod.fst
  refine (this.nodup_iff).2 ?_
  simp only [List.map_cons, List.nodup_cons]
  refine ⟨?_, hm.2⟩
  intro hmem
  obtain ⟨⟨v, k'⟩, hx, rfl⟩ := List.mem_map.1 hmem
  obtain ⟨ws, hw, hv'⟩ := (mem_flat m v k').1 hx
  exact hasVoted_false m v hv _ hw hv'

theorem MapInv.sublist {K : Type} {m m' : List (K × List Nat)} (h : m'.Sublist m) (hm : MapInv m) : MapInv m' :=
  ⟨hm.1.sublist (h.map _), hm.2.sublist ((flat_sublist h).map _)⟩

theorem MapInv.nil {K : Type} : MapInv ([] : List (K × List Nat)) := by simp [MapInv, flat]

/-- A vote set of the map has no repetition. -/
theorem MapInv.set_nodup {K : Type} {m : List (K × List Nat)} (hm : MapInv m) {k : K} {vs : List Nat}
    (h : (k, vs) ∈ m) : vs.Nodup := by
  have hs : [(k, vs)].Sublist m := by simpa using h
  have := (MapInv.sublist hs hm).2
  simpa [flat, Function.comp_def] using this

theorem lookup_nodup {K : Type} [DecidableEq K] {m : List (K × List Nat)} (hm : MapInv m) (k : K) :
    (lookupVotes m k).Nodup := by
  by_cases h : lookupVotes m k = []
  · simp [h]
  · obtain ⟨a, ha⟩ := List.exists_mem_of_ne_nil _ h
    exact hm.set_nodup (lookupVotes_mem m k a ha)

end Verif.EthBridge
