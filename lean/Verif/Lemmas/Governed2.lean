import Verif.Lemmas.Governed
import Verif.Lemmas.TokenManager3
import Verif.Lemmas.Anchor
import Verif.Lemmas.EthereumEvents
import Verif.Lemmas.EthBridgeEvents
import Verif.Lemmas.Summary

/-! # The settings of the pallets: what keeps them -/

namespace Verif.Governed

open Verif.Authority (privileged)

theorem tokens_keep (s : TokenManager.State) (x : TokenManager.Env × TokenManager.Step)
    (hx : ∀ l, tokens.rootCall x = some l → l ∉ privileged) :
    (tokens.step s x).lowersDisabled = s.lowersDisabled ∧ (tokens.step s x).avtContract = s.avtContract ∧
      (tokens.step s x).lowerPeriod = s.lowerPeriod := by
  obtain ⟨env, st⟩ := x
  show (TokenManager.step env s st).1.lowersDisabled = _ ∧ (TokenManager.step env s st).1.avtContract = _ ∧
    (TokenManager.step env s st).1.lowerPeriod = _
  have hv := TokenManager.step_view env s st
  generalize TokenManager.step env s st = r at hv
  cases hv with
  | setPeriod n => exact absurd (by decide) (hx .setLowerSchedulePeriod rfl)
  | toggle e => exact absurd (by decide) (hx .toggleLowering rfl)
  | setNative a => exact absurd (by decide) (hx .setNativeTokenEthAddress rfl)
  | _ => exact ⟨rfl, rfl, rfl⟩

/-! ### Anchoring -/

section
open Verif.Anchor

theorem doRegister_fee {handler : Acct} {name : List UInt8} {auth} {s s' : Anchor.State} (h : doRegister handler name auth s = .ok s') : s'.fee = s.fee := by
  unfold doRegister at h
  repeat' split at h
  all_goals first | (cases h; done) | (cases h; rfl)

theorem doUpdate_fee {old new : Acct} {chain auth} {s s' : Anchor.State} (h : doUpdate old new chain auth s = .ok s') : s'.fee = s.fee := by
  unfold doUpdate at h
  repeat' split at h
  all_goals first | (cases h; done) | (cases h; rfl)

theorem doSubmit_fee {env} {handler : Acct} {hash chain origin auth} {s s' : Anchor.State} (h : doSubmit env handler hash chain origin auth s = .ok s') :
    s'.fee = s.fee := by
  unfold doSubmit at h
  repeat' split at h
  all_goals first | (cases h; done) | (cases h; rfl)

theorem anchor_keep (s : Anchor.State) (x : Anchor.Step) (hx : ∀ l, anchor.rootCall x = some l → l ∉ privileged) :
    (anchor.step s x).fee = s.fee := by
  show (Anchor.step s x).fee = _
  unfold Anchor.step
  cases h : Anchor.exec s x with
  | error e => rfl
  | ok s' =>
  show s'.fee = s.fee
  cases x with
  | setFee root c f =>
    cases root with
    | true => exact absurd (by decide) (hx .setCheckpointFee rfl)
    | false => cases h
  | elsewhere f => cases h; rfl
  | register a n => exact doRegister_fee h
  | update a b =>
    simp only [exec, updateHandler] at h
    repeat' split at h
    all_goals first | (cases h; done) | exact doUpdate_fee h
  | submit env a hh o =>
    simp only [exec, submitCheckpoint] at h
    repeat' split at h
    all_goals first | (cases h; done) | exact doSubmit_fee h
  | signedRegister cr a p hh n =>
    simp only [exec, Anchor.signedRegister] at h
    repeat' split at h
    all_goals first | (cases h; done) | exact doRegister_fee h
  | signedUpdate cr a p o n =>
    simp only [exec, Anchor.signedUpdate] at h
    split at h
    · cases h
    split at h
    · cases h
    split at h
    · split at h
      · cases h
      · rename_i hd
        have e := doUpdate_fee hd
        cases h
        exact e
    · cases h
  | signedSubmit cr env a p hh k o =>
    simp only [exec, Anchor.signedSubmit] at h
    repeat' split at h
    all_goals first | (cases h; done) | exact doSubmit_fee h

end

/-! ### Manually submitted events -/

theorem events_keep {W : Type} (handler : EthEvents.EthEvent → W → W × Bool) (s : EthEvents.State W) (x : EthEvents.Step W)
    (hx : ∀ l, (events W handler).rootCall x = some l → l ∉ privileged) :
    ((events W handler).step s x).period = s.period := by
  show (EthEvents.step handler s x).period = _
  have key : ∀ r : Except EthEvents.Err (EthEvents.State W), (∀ s', r = .ok s' → s'.period = s.period) → (EthEvents.commit s r).period = s.period := by
    intro r hr
    cases r with
    | error e => rfl
    | ok s' => exact hr s' rfl
  have add : ∀ (n : Nat → Nat) ty tx a s', EthEvents.addEvent { s with nonces := n } ty tx a = .ok s' → s'.period = s.period := by
    intro n ty tx a s' h
    unfold EthEvents.addEvent at h
    repeat' split at h
    all_goals first | (cases h; done) | (cases h; rfl)
  cases x with
  | addLog ty tx a =>
    refine key _ (fun s' h => ?_)
    unfold EthEvents.addLog at h
    split at h
    · cases h
    · exact add s.nonces ty tx a s' h
  | signedAddLog ty tx a g f =>
    refine key _ (fun s' h => ?_)
    unfold EthEvents.signedAddLog at h
    split at h
    · cases h
    split at h
    · cases h
    split at h
    · cases h
    · exact add _ ty tx a s' h
  | submit c k n d g =>
    simp only [EthEvents.step]
    split
    · refine key _ (fun s' h => ?_)
      unfold EthEvents.submitCheck at h
      repeat' split at h
      all_goals first | (cases h; done) | (cases h; rfl)
    · rfl
  | process id k n g =>
    simp only [EthEvents.step]
    split
    · refine key _ (fun s' h => ?_)
      unfold EthEvents.processEvent at h
      repeat' split at h
      all_goals first | (cases h; done) | (cases h; rfl)
    · rfl
  | challenge id a k n g =>
    simp only [EthEvents.step]
    split
    · refine key _ (fun s' h => ?_)
      unfold EthEvents.challengeEvent at h
      repeat' split at h
      all_goals first | (cases h; done) | (cases h; rfl)
    · rfl
  | setPeriod p => exact absurd (by decide) (hx .setEventChallengePeriod rfl)
  | bridge tx acc =>
    simp only [EthEvents.step]
    split <;> rfl
  | environment b vs w => rfl

/-! ### Summaries -/

section
open Verif.Summary

/-- The settings of summaries. -/
def cfg (s : Summary.State) : Nat × Nat × Option Nat := (s.schedulePeriod, s.votingPeriod, s.threshold)

theorem processAccepted_cfg {s s' : Summary.State} {rid pub} (h : processAccepted s rid pub = .ok s') : cfg s' = cfg s := by
  obtain ⟨d, -, hp⟩ := processAccepted_ok h
  cases hp <;> rfl

theorem endVoting_cfg {refOf} {s s' : Summary.State} {rid pub prop} (h : endVoting refOf s rid pub prop = .ok s') : cfg s' = cfg s := by
  unfold endVoting at h
  split at h
  · cases h
  split at h
  · rename_i v d _ hd
    split at h
    · cases h
    split at h
    · split at h
      · cases h
      · rename_i s1 ha
        split at h
        · cases h
        · cases h
          have := acceptRoot_ok hd ha
          cases this with
          | submitted h => rfl
          | processed s1 h _ => cases h <;> rfl
    · split at h
      · cases h
      · cases h; rfl
  · cases h

theorem updateSlot_cfg {s s' : Summary.State} {who} (h : updateSlot s who = .ok s') : cfg s' = cfg s := by
  unfold updateSlot at h
  repeat' split at h
  all_goals first | (cases h; done) | (cases h; rfl)

theorem summary_keep (refOf : RootId → Nat → Nat) (s : Summary.State) (x : Summary.Step)
    (hx : ∀ l, (summary refOf).rootCall x = some l → l ∉ privileged) : cfg ((summary refOf).step s x) = cfg s := by
  show cfg (Summary.step refOf s x) = cfg s
  have key : ∀ r : Except Summary.Err Summary.State, (∀ s', r = .ok s' → cfg s' = cfg s) → cfg (Summary.commit s r) = cfg s := by
    intro r hr
    cases r with
    | error e => rfl
    | ok s' => exact hr s' rfl
  cases x with
  | record b h k who =>
    simp only [Summary.step]
    split
    · refine key _ (fun s' h => ?_)
      unfold recordSummary at h
      split at h
      · cases h
      split at h
      · cases h
      dsimp only at h
      split at h
      · cases h
      split at h
      · cases h
      split at h
      · cases h
      split at h
      · cases h
      split at h
      · cases h
      · cases h; rfl
    · rfl
  | vote rid v a p q =>
    refine key _ (fun s' h => ?_)
    unfold Summary.castVote at h
    split at h
    · cases h
    split at h
    · cases h
    dsimp only at h
    split at h
    · have e := endVoting_cfg h
      exact e
    · cases h; rfl
  | endVoting rid who p q =>
    simp only [Summary.step]
    split
    · exact key _ (fun s' h => endVoting_cfg h)
    · rfl
  | advanceSlot who =>
    simp only [Summary.step]
    split
    · exact key _ (fun s' h => updateSlot_cfg h)
    · rfl
  | challenge n a b who =>
    simp only [Summary.step]
    split
    · refine key _ (fun s' h => ?_)
      unfold addChallenge at h
      split at h
      · cases h
      dsimp only at h
      split at h
      · cases h
      · rename_i hu
        have e := updateSlot_cfg hu
        cases h
        exact e
    · rfl
  | setPeriods a b => exact absurd (by decide) (hx .setPeriods rfl)
  | setSchedule a => exact absurd (by decide) (hx .setAdminConfig rfl)
  | setVoting a => exact absurd (by decide) (hx .setAdminConfig rfl)
  | setThreshold a => exact absurd (by decide) (hx .setAdminConfig rfl)
  | adminResolve rid a p => exact absurd (by decide) (hx .adminResolveChallenge rfl)
  | votingCompleted r ok p =>
    show cfg (votingCompleted s r ok p) = cfg s
    unfold votingCompleted
    split
    · rfl
    split
    · split
      · rfl
      dsimp only
      split
      · rfl
      · rename_i hp
        have e := processAccepted_cfg hp
        exact e
    · rfl
  | cancelled r =>
    show cfg (cancelled s r) = cfg s
    unfold cancelled
    split <;> rfl
  | processResult tx m ok =>
    show cfg (processResult s tx m ok) = cfg s
    unfold processResult
    repeat' split
    all_goals rfl
  | environment b vs a e g => rfl

/-- An answer to a challenged root is a call of root. -/
theorem summary_no_verdict (refOf : RootId → Nat → Nat) (s : Summary.State) (x : Summary.Step)
    (hx : ∀ l, (summary refOf).rootCall x = some l → l ∉ privileged) (rid : RootId) (b : Bool)
    (h : Event.resolved rid b ∈ ((summary refOf).step s x).log) : Event.resolved rid b ∈ s.log := by
  have hn : ∀ rid' b' p', x ≠ .adminResolve rid' b' p' := by
    rintro rid' b' p' rfl
    exact absurd (by decide) (hx .adminResolveChallenge rfl)
  have hP : ∀ {t u : Summary.State} {rid' d pub}, Processed t rid' d pub u → Event.resolved rid b ∈ u.log → Event.resolved rid b ∈ t.log := by
    intro t u rid' d pub hp hm
    cases hp with
    | empty _ => exact hm
    | sent tx _ _ => simpa using hm
    | anchored _ => simpa using hm
  have hM : ∀ {op : Summary.Step} {t u : Summary.State}, (∀ rid' b' p', op ≠ .adminResolve rid' b' p') → Micro refOf op t u →
      Event.resolved rid b ∈ u.log → Event.resolved rid b ∈ t.log := by
    intro op t u ho hm he
    cases hm with
    | frame s' evs hf hl hev _ _ =>
      rw [hl, List.mem_append] at he
      rcases he with he | he
      · exact he
      · have := hev _ he; cases this
    | recorded b' h' k who voteEnd _ _ _ _ _ _ _ => simpa [recordEffects] using he
    | voted rid' voter approve pub prop v v' _ _ _ => exact he
    | approved rid' v d pub s1 _ _ _ _ hacc =>
      have h1 : Event.resolved rid b ∈ s1.log := by simpa [markValidated] using he
      cases hacc with
      | submitted _ => simpa using h1
      | processed s1 hp _ => exact hP hp h1
    | rejected rid' v d creator _ _ _ _ _ _ => simpa using he
    | resolvedAccept rid' ref d pub s1 hop _ _ _ _ => exact absurd hop (ho _ _ _)
    | resolvedReject rid' ref pub hop _ _ => exact absurd hop (ho _ _ _)
    | completed rid' ref d pub s1 _ _ _ hp =>
      have e := hP hp he
      exact e
    | stuck rid' ref pub _ _ => exact he
    | review rid' ref _ _ => simpa [setupReview] using he
    | finalised rid' tx _ _ => simpa using he
  have hv := Summary.step_view (refOf := refOf) s x
  change Event.resolved rid b ∈ (Summary.step refOf s x).log at h
  generalize Summary.step refOf s x = s' at hv h
  cases hv with
  | same => exact h
  | one hm => exact hM hn hm h
  | two rid' y a p q v v' _ _ _ h2 => 
    have e := hM (op := .cancelled 0) (by simp) (h2 _) h
    exact e

end

/-! ### Fees and offences -/

theorem fees_keep (pot : Acct) (s : Fees.State) (x : Fees.Step) (hx : ∀ l, (fees pot).rootCall x = some l → l ∉ privileged) :
    ((fees pot).step s x).known = s.known := by
  have hf : ∀ a, feeCall a ∈ privileged := by intro a; cases a <;> simp [feeCall, privileged]
  show (Fees.step pot s x).known = _
  cases x with
  | admin a => exact absurd (hf a) (hx _ rfl)
  | block => rfl
  | tx who lo fee cor tip disp inner =>
    cases inner with
    | some a => exact absurd (hf a) (hx _ rfl)
    | none =>
      simp only [Fees.step]
      repeat' split
      all_goals rfl

theorem handleOne_slashing (s : Offence.State) (o : Acct × Bool) : (Offence.handleOne s o).slashing = s.slashing := by
  unfold Offence.handleOne Offence.punish
  repeat' split
  all_goals rfl

theorem offences_keep (s : Offence.State) (x : Offence.Step) (hx : ∀ l, offences.rootCall x = some l → l ∉ privileged) :
    (offences.step s x).slashing = s.slashing := by
  show (Offence.step s x).slashing = _
  cases x with
  | offence os =>
    show (os.foldl Offence.handleOne s).slashing = _
    induction os generalizing s with
    | nil => rfl
    | cons o os ih => rw [List.foldl_cons, ih _ hx, handleOne_slashing]
  | configure r e =>
    cases r with
    | true => exact absurd (by decide) (hx .configureSlashing rfl)
    | false => rfl
  | register v => rfl

/-! ### The bridge's events -/

section
open Verif.EthBridge

variable {W : Type} (handler : W → EthEvent → W × Bool)

theorem addProcessed_inst {s s' : EthBridge.State W} {e acc} (h : addProcessedEvent s e acc = some s') :
    s'.instanceValid = s.instanceValid ∧ s'.network = s.network := by
  unfold addProcessedEvent at h
  dsimp only at h
  split at h
  · cases h
  split at h
  · cases h; exact ⟨rfl, rfl⟩
  · cases h

theorem addProcessedOn_inst {s s' : EthBridge.State W} {n e acc} (h : addProcessedEventOn s n e acc = some s') :
    s'.instanceValid = s.instanceValid ∧ s'.network = s.network := by
  unfold addProcessedEventOn at h
  split at h
  · exact addProcessed_inst h
  · cases h

theorem processDiscovered_inst (n : Nat) (a : Active) (s : EthBridge.State W) (d : Discovered) :
    (processDiscovered handler n a s d).instanceValid = s.instanceValid ∧ (processDiscovered handler n a s d).network = s.network := by
  unfold processDiscovered
  split
  · exact ⟨rfl, rfl⟩
  split
  · split
    · exact ⟨rfl, rfl⟩
    split
    · rename_i s' hp
      unfold EthBridge.processEvent at hp
      split at hp
      · cases hp
      split at hp
      · cases hp
      · rename_i s1 h1
        have e := addProcessedOn_inst h1
        cases hp
        exact e
    · exact ⟨rfl, rfl⟩
  · exact ⟨rfl, rfl⟩

theorem processPartition_inst (s : EthBridge.State W) (n : Nat) (a : Active) (p : Partition) :
    (processPartition handler s n a p).instanceValid = s.instanceValid ∧ (processPartition handler s n a p).network = s.network := by
  unfold processPartition
  dsimp only
  have key : ∀ (l : List Discovered) (t : EthBridge.State W),
      (l.foldl (processDiscovered handler n a) t).instanceValid = t.instanceValid ∧
        (l.foldl (processDiscovered handler n a) t).network = t.network := by
    intro l
    induction l with
    | nil => exact fun t => ⟨rfl, rfl⟩
    | cons d l ih =>
      intro t
      rw [List.foldl_cons]
      exact ⟨(ih _).1.trans (processDiscovered_inst handler n a t d).1, (ih _).2.trans (processDiscovered_inst handler n a t d).2⟩
  exact key p.events _

theorem migrate_inst (s : EthBridge.State W) (n : Nat) (b : List (EthEvent × Bool)) :
    (migrateBatch s n b).instanceValid = s.instanceValid ∧ (migrateBatch s n b).network = s.network := by
  unfold migrateBatch
  induction b generalizing s with
  | nil => exact ⟨rfl, rfl⟩
  | cons e b ih =>
    rw [List.foldl_cons]
    have h1 : ((addProcessedEventOn s n e.1 e.2).getD s).instanceValid = s.instanceValid ∧
        ((addProcessedEventOn s n e.1 e.2).getD s).network = s.network := by
      cases h : addProcessedEventOn s n e.1 e.2 with
      | none => exact ⟨rfl, rfl⟩
      | some s' => exact addProcessedOn_inst h
    exact ⟨(ih _).1.trans h1.1, (ih _).2.trans h1.2⟩

theorem bridgeEvents_keep (s : EthBridge.State W) (x : EthBridge.Step W)
    (hx : ∀ l, (bridgeEvents W handler).rootCall x = some l → l ∉ privileged) :
    ((bridgeEvents W handler).step s x).instanceValid = s.instanceValid ∧ ((bridgeEvents W handler).step s x).network = s.network := by
  show (EthBridge.step handler s x).instanceValid = _ ∧ (EthBridge.step handler s x).network = _
  have tx : ∀ r : Res W, (r.1.instanceValid = s.instanceValid ∧ r.1.network = s.network) →
      (EthBridge.transactional s r).instanceValid = s.instanceValid ∧ (EthBridge.transactional s r).network = s.network := by
    intro r hr
    unfold EthBridge.transactional
    split
    · exact ⟨rfl, rfl⟩
    · exact hr
  cases x with
  | submitEvents a p =>
    simp only [EthBridge.step]
    split
    · refine tx _ ?_
      unfold EthBridge.submitEvents
      split
      · exact ⟨rfl, rfl⟩
      split
      · exact ⟨rfl, rfl⟩
      split
      · exact ⟨rfl, rfl⟩
      split
      · exact ⟨rfl, rfl⟩
      split
      · exact ⟨rfl, rfl⟩
      dsimp only
      split
      · exact ⟨rfl, rfl⟩
      · unfold advancePartition
        split
        · exact processPartition_inst handler _ _ _ p
        · exact processPartition_inst handler _ _ _ p
    · exact ⟨rfl, rfl⟩
  | submitBlock a l =>
    simp only [EthBridge.step]
    split
    · refine tx _ ?_
      unfold EthBridge.submitBlock
      dsimp only
      repeat' split
      all_goals exact ⟨rfl, rfl⟩
    · exact ⟨rfl, rfl⟩
  | admin keep a => exact absurd (by decide) (hx .bridgeSetAdminSetting rfl)
  | migrate n b =>
    show (migrateBatch s n b).instanceValid = _ ∧ (migrateBatch s n b).network = _
    exact migrate_inst s n b
  | addProcessed e acc =>
    show ((addProcessedEvent s e acc).getD s).instanceValid = _ ∧ ((addProcessedEvent s e acc).getD s).network = _
    cases h : addProcessedEvent s e acc with
    | none => exact ⟨rfl, rfl⟩
    | some s' => exact addProcessed_inst h
  | newAuthors as => exact ⟨rfl, rfl⟩
  | external w => exact ⟨rfl, rfl⟩

end

end Verif.Governed
