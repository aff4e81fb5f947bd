import Verif.Model.Authority

/-!
# Who may make which call: C128–C131

## Specification
-/

namespace Verif.Authority

/-- The calls that only the sudo key or a vote for root may bring about. `execute_lower` is not among them: it is a root call that the chain itself makes for a
user who asked to lower. -/
def privileged : List Leaf :=
  [ -- the validators
    .addCollator, .removeValidator, .rotateValidatorEthereumKey, .setTotalSelected, .setBlocksPerEra, .stakingSetAdminSetting,
    -- the bridge, its contract and its tokens
    .bridgeSetAdminSetting, .setBridgeContract, .setNativeTokenEthAddress, .toggleLowering, .setLowerSchedulePeriod,
    .transferFromTreasury,
    -- summaries, events, offences, fees
    .setPeriods, .setAdminConfig, .adminResolveChallenge, .insertNftContract, .setEventChallengePeriod, .configureSlashing,
    .setKnownSender, .removeKnownSender, .setCheckpointFee,
    -- the code, the storage and the balances
    .systemSetCode, .systemSetStorage, .systemKillStorage, .balancesForceTransfer, .balancesForceSetBalance, .assetsForceCreate ]

/-- The calls by which a collator would join or leave by itself. -/
def restricted : List Leaf := [.joinCandidates, .scheduleLeaveCandidates, .executeLeaveCandidates, .cancelLeaveCandidates]

/-- `b` is `a`, or an account derived from it. -/
inductive Controls (E : Env) : Acct → Acct → Prop where
  | self (a : Acct) : Controls E a a
  | derived (a b : Acct) (i : Nat) : Controls E (E.derive a i) b → Controls E a b

/-- The step is a call by someone who controls the account `k`. -/
def ActsFor (E : Env) (k : Acct) : Step → Prop
  | .tx a _ => Controls E a k
  | .remote l kind _ => ∃ a, Xcm.toOrigin l kind = some (.signed a) ∧ Controls E a k
  | _ => False

/-- The step is the approval of a referendum that asks for root. -/
def RootVote (s : Chain) : Step → Prop
  | .approve i => ∃ r, s.referenda[i]? = some r ∧ r.origin = .root
  | _ => False

/-- No step of the history is by the sudo key of its time, and none approves a referendum for root. -/
def WithoutPower (E : Env) : Chain → List Step → Prop
  | _, [] => True
  | s, st :: h => (∀ k, s.key = some k → ¬ ActsFor E k st) ∧ ¬ RootVote s st ∧ WithoutPower E (step E s st) h

/-- The account asked for a lower. -/
def Asked (s : Chain) (a : Acct) : Prop := (Origin.signed a, Leaf.scheduleDirectLower) ∈ s.log ∨ (Origin.signed a, Leaf.scheduleSignedLower) ∈ s.log

/-- Nothing is pending under root but lowers their owners asked for, and no call is whitelisted. -/
structure Quiet (s : Chain) : Prop where
  whitelist : s.whitelist = []
  agenda : ∀ o c, (o, c) ∈ s.agenda → (∃ x, o = .custom x) ∨ o = .root ∧ ∃ a, c = .leaf (.executeLower a) true ∧ Asked s a

/-- `d` occurs in `c`. -/
inductive Within : Call → Call → Prop where
  | self (c : Call) : Within c c
  | inBatch (d c : Call) (k : BatchKind) (cs : List Call) : c ∈ cs → Within d c → Within d (.batch k cs)
  | inDerivative (d c : Call) (i : Nat) : Within d c → Within d (.asDerivative i c)
  | inDispatchAs (d c : Call) (o : Origin) : Within d c → Within d (.dispatchAs o c)
  | inWithWeight (d c : Call) : Within d c → Within d (.withWeight c)
  | inSudo (d c : Call) : Within d c → Within d (.sudo c)
  | inSudoAs (d c : Call) (w : Acct) : Within d c → Within d (.sudoAs w c)
  | inSchedule (d c : Call) : Within d c → Within d (.schedule c)
  | inSubmit (d c : Call) (o : Origin) : Within d c → Within d (.submit o c)
  | inWhitelisted (d c : Call) : Within d c → Within d (.dispatchWhitelisted c)
  | inProxy (d c : Call) (k : ProxyKind) (a : Acct) (v : Bool) : Within d c → Within d (.proxy k a v c)

/-- The call of a step. -/
def callOf : Step → Option Call
  | .tx _ c => some c
  | .unsignedTx c => some c
  | .remote _ _ c => some c
  | _ => none

/-- Somewhere in `c`, root or the sudo key makes a restricted call in the name of an account. -/
def Smuggles (c : Call) : Prop :=
  ∃ l ok, l ∈ restricted ∧ ((∃ w, Within (.sudoAs w (.leaf l ok)) c) ∨ ∃ o, Within (.dispatchAs o (.leaf l ok)) c)

/-- The calls that carry a proof of their signer's consent, by the proxy that runs them. -/
def proven : ProxyKind → List Leaf
  | .token => [.signedTransfer, .scheduleSignedLower]
  | .nft =>
    [.signedMintSingleNft, .signedListNftOpenForSale, .signedTransferFiatNft, .signedCancelListFiatNft, .signedCreateBatch, .signedMintBatchNft,
     .signedListBatchForSale, .signedEndBatchSale]
  | .avn =>
    [.signedTransfer, .scheduleSignedLower, .signedAddEthereumLog,
     .signedMintSingleNft, .signedListNftOpenForSale, .signedTransferFiatNft, .signedCancelListFiatNft, .signedCreateBatch, .signedMintBatchNft,
     .signedListBatchForSale, .signedEndBatchSale,
     .signedCandidateBondExtra, .signedScheduleCandidateUnbond, .signedExecuteCandidateUnbond, .signedNominate, .signedBondExtra,
     .signedScheduleLeaveNominators, .signedExecuteLeaveNominators, .signedScheduleRevokeNomination, .signedScheduleNominatorUnbond,
     .signedExecuteNominationRequest, .signedRegisterChainHandler, .signedUpdateChainHandler, .signedSubmitCheckpoint]

/-- The calls open to every account. -/
def openCalls : List Leaf :=
  [ -- balances and tokens
    .balancesTransfer, .scheduleDirectLower, .regenerateLowerProof,
    -- staking
    .goOffline, .goOnline, .candidateBondExtra, .scheduleCandidateUnbond, .executeCandidateUnbond, .cancelCandidateUnbond,
    .nominate, .scheduleLeaveNominators, .executeLeaveNominators, .cancelLeaveNominators, .scheduleRevokeNomination, .bondExtra,
    .scheduleNominatorUnbond, .executeNominationRequest, .cancelNominationRequest, .hotfixRemoveNominationRequests,
    -- anchoring, events, NFTs
    .registerChainHandler, .updateChainHandler, .submitCheckpoint, .addEthereumLog, .mintSingleNft, .listNftOpenForSale ]

/-- The calls meant for the validators' own software. -/
def workerCalls : List Leaf :=
  [.addConfirmation, .addEthTxHash, .addCorroboration, .submitEthereumEvents, .submitLatestEthereumBlock, .recordSummaryCalculation, .approveRoot, .rejectRoot,
   .endVotingPeriod, .advanceSlot, .addChallenge, .submitCheckeventResult, .processEvent, .challengeEvent]

/-- Some ongoing referenda were given the status `st`; nothing else changed. -/
def Stopped (st : Status) (rs rs' : List Referendum) : Prop :=
  ∀ i : Nat, rs'[i]? = rs[i]? ∨ ∃ r : Referendum, rs[i]? = some r ∧ r.status = .ongoing ∧ rs'[i]? = some { r with status := st }

/-! ## Proofs -/

/-- The invariant, from a key and a log. -/
structure Inv (k : Option Acct) (L : List (Origin × Leaf)) (s : Chain) : Prop where
  quiet : Quiet s
  key : s.key = k
  log : ∃ new, s.log = L ++ new ∧ ∀ o l, (o, l) ∈ new → l ∉ privileged ∧ l ∉ restricted ∧ ∀ a, l = .executeLower a → Asked s a

/-- An origin without power over the chain. -/
def Weak (E : Env) (k : Option Acct) (o : Origin) : Prop := o ≠ .root ∧ ∀ a b, o = .signed a → k = some b → ¬ Controls E a b

theorem Asked.mono {s s' : Chain} {a : Acct} (h : Asked s a) (x : List (Origin × Leaf)) (e : s'.log = s.log ++ x) : Asked s' a := by
  unfold Asked at *
  rw [e]
  rcases h with h | h
  · exact Or.inl (List.mem_append_left _ h)
  · exact Or.inr (List.mem_append_left _ h)

theorem need_of_privileged : ∀ l ∈ privileged, need l = .root := by decide

theorem filter_restricted : ∀ l ∈ restricted, ∀ ok, filter (.leaf l ok) = false := by decide

theorem carryOut_key (l : Leaf) (o : Origin) (s : Chain) : (carryOut l o s).key = s.key := by
  unfold carryOut; dsimp only; split <;> rfl

theorem carryOut_whitelist (l : Leaf) (o : Origin) (s : Chain) : (carryOut l o s).whitelist = s.whitelist := by
  unfold carryOut; dsimp only; split <;> rfl

theorem carryOut_referenda (l : Leaf) (o : Origin) (s : Chain) : (carryOut l o s).referenda = s.referenda := by
  unfold carryOut; dsimp only; split <;> rfl

theorem carryOut_log (l : Leaf) (o : Origin) (s : Chain) : (carryOut l o s).log = s.log ++ [(o, l)] := by
  unfold carryOut; dsimp only; split <;> rfl

theorem carryOut_agenda (l : Leaf) (o : Origin) (s : Chain) :
    (carryOut l o s).agenda = s.agenda ∨
      ∃ a, o = .signed a ∧ (l = .scheduleDirectLower ∨ l = .scheduleSignedLower) ∧
        (carryOut l o s).agenda = s.agenda ++ [(.root, .leaf (.executeLower a) true)] := by
  unfold carryOut; dsimp only; split
  · exact Or.inr ⟨_, rfl, Or.inl rfl, rfl⟩
  · exact Or.inr ⟨_, rfl, Or.inr rfl, rfl⟩
  · exact Or.inl rfl

/-- Carrying out a call that is neither privileged nor restricted keeps the invariant. -/
theorem carryOut_inv {k L s} (h : Inv k L s) {l : Leaf} {o : Origin} (h1 : l ∉ privileged) (h2 : l ∉ restricted)
    (h3 : ∀ a, l = .executeLower a → Asked s a) : Inv k L (carryOut l o s) := by
  have e := carryOut_log l o s
  refine ⟨⟨by rw [carryOut_whitelist]; exact h.quiet.whitelist, ?_⟩, by rw [carryOut_key]; exact h.key, ?_⟩
  · intro o' c' hm
    have old : (o', c') ∈ s.agenda → (∃ x, o' = .custom x) ∨
        o' = .root ∧ ∃ a, c' = .leaf (.executeLower a) true ∧ Asked (carryOut l o s) a := by
      intro hm
      rcases h.quiet.agenda o' c' hm with h | ⟨h, a, hc, ha⟩
      · exact Or.inl h
      · exact Or.inr ⟨h, a, hc, ha.mono _ e⟩
    rcases carryOut_agenda l o s with ea | ⟨a, ho, hl, ea⟩
    · rw [ea] at hm
      exact old hm
    · rw [ea] at hm
      rcases List.mem_append.mp hm with hm | hm
      · exact old hm
      · cases List.mem_singleton.mp hm
        refine Or.inr ⟨rfl, a, rfl, ?_⟩
        unfold Asked
        rw [e]
        subst ho
        rcases hl with hl | hl <;> subst hl <;> simp
  · obtain ⟨new, hn, hp⟩ := h.log
    refine ⟨new ++ [(o, l)], by rw [e, hn, List.append_assoc], fun o' l' hm => ?_⟩
    rcases List.mem_append.mp hm with hm | hm
    · obtain ⟨p1, p2, p3⟩ := hp o' l' hm
      exact ⟨p1, p2, fun a ha => (p3 a ha).mono _ e⟩
    · cases List.mem_singleton.mp hm
      exact ⟨h1, h2, fun a ha => (h3 a ha).mono _ e⟩

theorem Inv.of_same {k L s s'} (h : Inv k L s) (e1 : s'.whitelist = s.whitelist) (e2 : s'.agenda = s.agenda) (e3 : s'.key = s.key)
    (e4 : s'.log = s.log) : Inv k L s' := by
  have ask : ∀ a, Asked s a → Asked s' a := fun a ha => ha.mono [] (by rw [e4, List.append_nil])
  refine ⟨⟨e1.trans h.quiet.whitelist, fun o c hm => ?_⟩, e3.trans h.key, ?_⟩
  · rw [e2] at hm
    rcases h.quiet.agenda o c hm with h | ⟨h, a, hc, ha⟩
    · exact Or.inl h
    · exact Or.inr ⟨h, a, hc, ask a ha⟩
  · obtain ⟨new, hn, hp⟩ := h.log
    refine ⟨new, e4.trans hn, fun o l hm => ?_⟩
    obtain ⟨p1, p2, p3⟩ := hp o l hm
    exact ⟨p1, p2, fun a ha => ask a (p3 a ha)⟩

theorem setStatus_inv {s s' : Chain} {i st} (h : setStatus s i st = some s') :
    ∃ r, s.referenda[i]? = some r ∧ r.status = .ongoing ∧ s' = { s with referenda := s.referenda.set i { r with status := st } } := by
  unfold setStatus at h
  split at h
  · rename_i r hr
    split at h
    · rename_i hs
      exact ⟨r, hr, hs, (Option.some.inj h).symm⟩
    · cases h
  · cases h

theorem Inv.setStatus {k L s s' i st} (h : Inv k L s) (e : setStatus s i st = some s') : Inv k L s' := by
  obtain ⟨r, -, -, rfl⟩ := setStatus_inv e
  exact h.of_same rfl rfl rfl rfl

theorem Weak.not_sudo {E k o L s} (h : Weak E k o) (hi : Inv k L s) : isSudo s o = false := by
  cases o with
  | root => exact absurd rfl h.1
  | signed a =>
    unfold isSudo
    rw [decide_eq_false_iff_not, hi.key]
    intro e
    exact h.2 a a rfl e (.self a)
  | _ => rfl

theorem leaf_inv {k L s s'} (E : Env) (h : Inv k L s) {l : Leaf} {ok : Bool} {o : Origin} (ho : o ≠ .root) (hp : passes o (.leaf l ok) = true)
    (e : exec E (.leaf l ok) o s = some s') : Inv k L s' := by
  rw [exec] at e
  split at e
  · rename_i hc
    rw [Bool.and_eq_true] at hc
    cases e
    have hn : need l ≠ .root := by
      intro en
      rw [en] at hc
      cases o <;> first | exact ho rfl | exact absurd hc.1 Bool.false_ne_true
    refine carryOut_inv h (fun hm => hn (need_of_privileged l hm)) (fun hm => ?_) (fun a ea => ?_)
    · rw [passes, if_neg ho, filter_restricted l hm ok] at hp
      cases hp
    · rw [ea] at hn
      exact absurd rfl hn
  · cases e

mutual
theorem exec_inv (E : Env) {k : Option Acct} {L : List (Origin × Leaf)} : ∀ (c : Call) (o : Origin) (s s' : Chain), Weak E k o →
    passes o c = true → Inv k L s → exec E c o s = some s' → Inv k L s'
  | .leaf l ok, o, s, s', hw, hp, hi, e => leaf_inv E hi hw.1 hp e
  | .batch b cs, o, s, s', hw, hp, hi, e => by
    rw [exec] at e
    split at e
    · cases e
    · exact execAll_inv E b cs o s s' hw hi e
  | .asDerivative i c, o, s, s', hw, hp, hi, e => by
    cases o with
    | signed a =>
      rw [exec] at e
      split at e
      · rename_i hp'
        refine exec_inv E c _ s s' ⟨(by intro e; cases e), ?_⟩ hp' hi e
        intro a' b ea eb hc
        cases ea
        exact hw.2 a b rfl eb (.derived a b i hc)
      · cases e
    | _ => simp only [exec, reduceCtorEq] at e
  | .dispatchAs o' c, o, s, s', hw, hp, hi, e => by
    rw [exec, if_neg hw.1] at e; cases e
  | .withWeight c, o, s, s', hw, hp, hi, e => by
    rw [exec, if_neg hw.1] at e; cases e
  | .sudo c, o, s, s', hw, hp, hi, e => by
    rw [exec, hw.not_sudo hi] at e; cases e
  | .sudoAs w c, o, s, s', hw, hp, hi, e => by
    rw [exec, hw.not_sudo hi] at e; cases e
  | .setKey w, o, s, s', hw, hp, hi, e => by
    rw [exec, hw.not_sudo hi] at e; cases e
  | .removeKey, o, s, s', hw, hp, hi, e => by
    rw [exec, hw.not_sudo hi] at e; cases e
  | .schedule c, o, s, s', hw, hp, hi, e => by
    rw [exec, if_neg hw.1] at e; cases e
  | .cancelTask n, o, s, s', hw, hp, hi, e => by
    rw [exec, if_neg hw.1] at e; cases e
  | .submit o' c, o, s, s', hw, hp, hi, e => by
    cases o with
    | signed a =>
      rw [exec] at e
      split at e
      · cases e
        exact hi.of_same rfl rfl rfl rfl
      · cases e
    | _ => simp only [exec, reduceCtorEq] at e
  | .cancelReferendum i, o, s, s', hw, hp, hi, e => by
    rw [exec] at e
    split at e
    · exact hi.setStatus e
    · cases e
  | .killReferendum i, o, s, s', hw, hp, hi, e => by
    rw [exec] at e
    split at e
    · exact hi.setStatus e
    · cases e
  | .whitelistCall h, o, s, s', hw, hp, hi, e => by
    rw [exec, if_neg hw.1] at e; cases e
  | .removeWhitelistedCall h, o, s, s', hw, hp, hi, e => by
    rw [exec, if_neg hw.1] at e; cases e
  | .dispatchWhitelisted c, o, s, s', hw, hp, hi, e => by
    rw [exec, hi.quiet.whitelist] at e
    simp at e
  | .proxy pk signer valid c, o, s, s', hw, hp, hi, e => by
    cases o with
    | signed a =>
      cases c with
      | leaf l ok =>
        rw [exec] at e
        split at e
        · rename_i hc
          rw [Bool.and_eq_true] at hc
          have hin : ∀ s'', exec E (.leaf l ok) (.signed signer) s = some s'' → Inv k L s'' := fun s'' e'' =>
            leaf_inv E hi (by intro e; cases e) hc.2 e''
          cases pk with
          | avn =>
            rw [proxied] at e
            cases ex : exec E (.leaf l ok) (.signed signer) s with
            | none => rw [ex] at e; cases e; exact hi
            | some s'' => rw [ex] at e; cases e; exact hin _ ex
          | token => exact hin _ e
          | nft => exact hin _ e
        · cases e
      | _ =>
        simp [exec, provableCall] at e
    | _ => simp only [exec, reduceCtorEq] at e

theorem execAll_inv (E : Env) {k : Option Acct} {L : List (Origin × Leaf)} (b : BatchKind) : ∀ (cs : List Call) (o : Origin) (s s' : Chain),
    Weak E k o → Inv k L s → execAll E b cs o s = some s' → Inv k L s'
  | [], o, s, s', hw, hi, e => by
    rw [execAll] at e; cases e; exact hi
  | c :: cs, o, s, s', hw, hi, e => by
    rw [execAll] at e
    split at e
    · rename_i s'' ex
      split at ex
      · rename_i hp
        exact execAll_inv E b cs o s'' s' hw (exec_inv E c o s s'' hw hp hi ex) e
      · cases ex
    · cases b with
      | batch => rw [afterFailure] at e; cases e; exact hi
      | batchAll => rw [afterFailure] at e; cases e
      | forceBatch => exact execAll_inv E _ cs o s s' hw hi e
end

theorem dispatch_inv {E : Env} {k L c o s} (hw : Weak E k o) (hi : Inv k L s) : Inv k L (orKeep s (dispatch E c o s)) := by
  unfold dispatch
  split
  · rename_i hp
    cases ex : exec E c o s with
    | none => exact hi
    | some s' => exact exec_inv E c o s s' hw hp hi ex
  · exact hi

theorem ofXcm_signed {o : Xcm.Origin} {a : Acct} (h : ofXcm o = .signed a) : o = .signed a := by
  cases o <;> cases h; rfl

theorem toOrigin_ne_root (l : Xcm.Location) (k : Xcm.OriginKind) : Xcm.toOrigin l k ≠ some .root := by
  intro h
  unfold Xcm.toOrigin at h
  split at h
  · rw [Option.map_eq_some_iff] at h
    obtain ⟨a, -, h⟩ := h
    cases h
  · split at h
    · cases h
    · split at h
      · split at h <;> cases h
      · cases h
      · cases h
  · cases h
  · cases h

theorem Inv.erase {k L s} (h : Inv k L s) (n : Nat) : Inv k L { s with agenda := s.agenda.eraseIdx n } :=
  ⟨⟨h.quiet.whitelist, fun o c hm => h.quiet.agenda o c (List.mem_of_mem_eraseIdx hm)⟩, h.key, h.log⟩

theorem trackFor_cases {o : Origin} (h : (trackFor o).isSome) : o = .root ∨ ∃ x, o = .custom x := by
  cases o with
  | root => exact Or.inl rfl
  | custom x => exact Or.inr ⟨x, rfl⟩
  | _ => cases h

/-! ### Where calls and origins come from -/

/-- What holds of the tables; with `R`, also that no call smuggles and no restricted call was made. -/
structure Tables (R : Prop) (s : Chain) : Prop where
  refs : ∀ r ∈ s.referenda, r.origin = .root ∨ ∃ x, r.origin = .custom x
  agenda : ∀ o c, (o, c) ∈ s.agenda → o = .root ∨ ∃ x, o = .custom x
  refsCalls : R → ∀ r ∈ s.referenda, ¬ Smuggles r.call
  agendaCalls : R → ∀ o c, (o, c) ∈ s.agenda → ¬ Smuggles c
  log : R → ∀ o l, (o, l) ∈ s.log → l ∉ restricted

theorem not_smuggles_sub {c d : Call} (hs : ¬ Smuggles c) (h : ∀ e, Within e d → Within e c) : ¬ Smuggles d := by
  rintro ⟨l, ok, hl, hw⟩
  refine hs ⟨l, ok, hl, ?_⟩
  rcases hw with ⟨w, hw⟩ | ⟨o, hw⟩
  · exact Or.inl ⟨w, h _ hw⟩
  · exact Or.inr ⟨o, h _ hw⟩

theorem passes_of_not_leaf {o : Origin} {c : Call} (h : ∀ l ok, c = .leaf l ok → l ∉ restricted) : passes o c = true := by
  unfold passes
  split
  · rfl
  · cases c with
    | leaf l ok =>
      have := h l ok rfl
      cases l <;> first | rfl | exact absurd (by decide) this
    | _ => rfl

theorem passes_under_sudoAs {w : Acct} {c : Call} (o : Origin) (h : ¬ Smuggles (.sudoAs w c)) : passes o c = true :=
  passes_of_not_leaf (fun l ok e hl => h ⟨l, ok, hl, Or.inl ⟨w, by rw [e]; exact .self _⟩⟩)

theorem passes_under_dispatchAs {o' : Origin} {c : Call} (o : Origin) (h : ¬ Smuggles (.dispatchAs o' c)) : passes o c = true :=
  passes_of_not_leaf (fun l ok e hl => h ⟨l, ok, hl, Or.inr ⟨o', by rw [e]; exact .self _⟩⟩)

theorem passes_root (c : Call) : passes .root c = true := rfl

theorem Tables.setStatus {R s s' i st} (h : Tables R s) (e : setStatus s i st = some s') : Tables R s' := by
  obtain ⟨r, hr, -, rfl⟩ := setStatus_inv e
  have hm : r ∈ s.referenda := List.mem_of_getElem? hr
  refine ⟨fun r' hr' => ?_, h.agenda, fun hR r' hr' => ?_, h.agendaCalls, h.log⟩
  · rcases List.mem_or_eq_of_mem_set hr' with hr' | rfl
    · exact h.refs r' hr'
    · exact h.refs r hm
  · rcases List.mem_or_eq_of_mem_set hr' with hr' | rfl
    · exact h.refsCalls hR r' hr'
    · exact h.refsCalls hR r hm

theorem not_smuggles_leaf (l : Leaf) (ok : Bool) : ¬ Smuggles (.leaf l ok) := by
  rintro ⟨l, ok, -, ⟨w, h⟩ | ⟨o, h⟩⟩ <;> cases h

theorem Tables.leaf {R s s'} (E : Env) (h : Tables R s) {l : Leaf} {ok : Bool} {o : Origin} (hp : R → passes o (.leaf l ok) = true)
    (e : exec E (.leaf l ok) o s = some s') : Tables R s' := by
  rw [exec] at e
  split at e
  · rename_i hc
    rw [Bool.and_eq_true] at hc
    cases e
    refine ⟨by rw [carryOut_referenda]; exact h.refs, ?_, by rw [carryOut_referenda]; exact h.refsCalls, ?_, ?_⟩
    · intro o' c' hm
      rcases carryOut_agenda l o s with ea | ⟨a, -, -, ea⟩
      · rw [ea] at hm; exact h.agenda o' c' hm
      · rw [ea] at hm
        rcases List.mem_append.mp hm with hm | hm
        · exact h.agenda o' c' hm
        · cases List.mem_singleton.mp hm; exact Or.inl rfl
    · intro hR o' c' hm
      rcases carryOut_agenda l o s with ea | ⟨a, -, -, ea⟩
      · rw [ea] at hm; exact h.agendaCalls hR o' c' hm
      · rw [ea] at hm
        rcases List.mem_append.mp hm with hm | hm
        · exact h.agendaCalls hR o' c' hm
        · cases List.mem_singleton.mp hm; exact not_smuggles_leaf _ _
    · intro hR o' l' hm
      rw [carryOut_log] at hm
      rcases List.mem_append.mp hm with hm | hm
      · exact h.log hR o' l' hm
      · cases List.mem_singleton.mp hm
        intro hl
        have hp := hp hR
        by_cases ho : o = .root
        · subst ho
          have : ∀ l ∈ restricted, accepts (need l) .root = false := by decide
          rw [this l hl] at hc
          exact absurd hc.1 Bool.false_ne_true
        · rw [passes, if_neg ho, filter_restricted l hl ok] at hp
          cases hp
  · cases e

theorem Tables.keep {R s r} (h : Tables R s) (h' : ∀ s', r = some s' → Tables R s') : Tables R (orKeep s r) := by
  cases r with
  | none => exact h
  | some s' => exact h' s' rfl

theorem Tables.whitelist {R s} (h : Tables R s) (w : List Nat) : Tables R { s with whitelist := w } := ⟨h.refs, h.agenda, h.refsCalls, h.agendaCalls, h.log⟩

mutual
theorem exec_tables (E : Env) {R : Prop} : ∀ (c : Call) (o : Origin) (s s' : Chain), (R → ¬ Smuggles c) → (R → passes o c = true) →
    Tables R s → exec E c o s = some s' → Tables R s'
  | .leaf l ok, o, s, s', hs, hp, hi, e => hi.leaf E hp e
  | .batch b cs, o, s, s', hs, hp, hi, e => by
    rw [exec] at e
    split at e
    · cases e
    · exact execAll_tables E b cs o s s' (fun hR c hc => not_smuggles_sub (hs hR) (fun d hd => .inBatch d c b cs hc hd)) hi e
  | .asDerivative i c, o, s, s', hs, hp, hi, e => by
    cases o with
    | signed a =>
      rw [exec] at e
      split at e
      · rename_i hp'
        exact exec_tables E c _ s s' (fun hR => not_smuggles_sub (hs hR) (fun d hd => .inDerivative d c i hd)) (fun _ => hp') hi e
      · cases e
    | _ => simp only [exec, reduceCtorEq] at e
  | .dispatchAs o' c, o, s, s', hs, hp, hi, e => by
    rw [exec] at e
    split at e
    · cases e
      exact hi.keep (fun s' e' => exec_tables E c o' s s' (fun hR => not_smuggles_sub (hs hR) (fun d hd => .inDispatchAs d c o' hd))
        (fun hR => passes_under_dispatchAs o' (hs hR)) hi e')
    · cases e
  | .withWeight c, o, s, s', hs, hp, hi, e => by
    rw [exec] at e
    split at e
    · exact exec_tables E c .root s s' (fun hR => not_smuggles_sub (hs hR) (fun d hd => .inWithWeight d c hd)) (fun _ => rfl) hi e
    · cases e
  | .sudo c, o, s, s', hs, hp, hi, e => by
    rw [exec] at e
    split at e
    · cases e
      exact hi.keep (fun s' e' => exec_tables E c .root s s' (fun hR => not_smuggles_sub (hs hR) (fun d hd => .inSudo d c hd))
        (fun _ => rfl) hi e')
    · cases e
  | .sudoAs w c, o, s, s', hs, hp, hi, e => by
    rw [exec] at e
    split at e
    · cases e
      exact hi.keep (fun s' e' => exec_tables E c (.signed w) s s' (fun hR => not_smuggles_sub (hs hR) (fun d hd => .inSudoAs d c w hd))
        (fun hR => passes_under_sudoAs _ (hs hR)) hi e')
    · cases e
  | .setKey w, o, s, s', hs, hp, hi, e => by
    rw [exec] at e
    split at e
    · cases e; exact ⟨hi.refs, hi.agenda, hi.refsCalls, hi.agendaCalls, hi.log⟩
    · cases e
  | .removeKey, o, s, s', hs, hp, hi, e => by
    rw [exec] at e
    split at e
    · cases e; exact ⟨hi.refs, hi.agenda, hi.refsCalls, hi.agendaCalls, hi.log⟩
    · cases e
  | .schedule c, o, s, s', hs, hp, hi, e => by
    rw [exec] at e
    split at e
    · rename_i ho
      cases e
      refine ⟨hi.refs, fun o' c' hm => ?_, hi.refsCalls, fun hR o' c' hm => ?_, hi.log⟩
      · rcases List.mem_append.mp hm with hm | hm
        · exact hi.agenda o' c' hm
        · cases List.mem_singleton.mp hm; exact Or.inl ho
      · rcases List.mem_append.mp hm with hm | hm
        · exact hi.agendaCalls hR o' c' hm
        · cases List.mem_singleton.mp hm
          exact not_smuggles_sub (hs hR) (fun d hd => .inSchedule d c hd)
    · cases e
  | .cancelTask n, o, s, s', hs, hp, hi, e => by
    rw [exec] at e
    split at e
    · cases e
      exact ⟨hi.refs, fun o c hm => hi.agenda o c (List.mem_of_mem_eraseIdx hm), hi.refsCalls,
        fun hR o c hm => hi.agendaCalls hR o c (List.mem_of_mem_eraseIdx hm), hi.log⟩
    · cases e
  | .submit o' c, o, s, s', hs, hp, hi, e => by
    cases o with
    | signed a =>
      rw [exec] at e
      split at e
      · rename_i ht
        cases e
        refine ⟨fun r hr => ?_, hi.agenda, fun hR r hr => ?_, hi.agendaCalls, hi.log⟩
        · rcases List.mem_append.mp hr with hr | hr
          · exact hi.refs r hr
          · cases List.mem_singleton.mp hr; exact trackFor_cases ht
        · rcases List.mem_append.mp hr with hr | hr
          · exact hi.refsCalls hR r hr
          · cases List.mem_singleton.mp hr
            exact not_smuggles_sub (hs hR) (fun d hd => .inSubmit d c o' hd)
      · cases e
    | _ => simp only [exec, reduceCtorEq] at e
  | .cancelReferendum i, o, s, s', hs, hp, hi, e => by
    rw [exec] at e
    split at e
    · exact hi.setStatus e
    · cases e
  | .killReferendum i, o, s, s', hs, hp, hi, e => by
    rw [exec] at e
    split at e
    · exact hi.setStatus e
    · cases e
  | .whitelistCall h, o, s, s', hs, hp, hi, e => by
    rw [exec] at e
    split at e
    · cases e; exact hi.whitelist _
    · cases e
  | .removeWhitelistedCall h, o, s, s', hs, hp, hi, e => by
    rw [exec] at e
    split at e
    · cases e; exact hi.whitelist _
    · cases e
  | .dispatchWhitelisted c, o, s, s', hs, hp, hi, e => by
    rw [exec] at e
    split at e
    · cases e
      exact (hi.whitelist _).keep (fun s' e' => exec_tables E c .root _ s'
        (fun hR => not_smuggles_sub (hs hR) (fun d hd => .inWhitelisted d c hd)) (fun _ => rfl) (hi.whitelist _) e')
    · cases e
  | .proxy pk signer valid c, o, s, s', hs, hp, hi, e => by
    cases o with
    | signed a =>
      rw [exec] at e
      split at e
      · rename_i hc
        rw [Bool.and_eq_true] at hc
        have hin : ∀ s'', exec E c (.signed signer) s = some s'' → Tables R s'' := fun s'' e'' =>
          exec_tables E c _ s s'' (fun hR => not_smuggles_sub (hs hR) (fun d hd => .inProxy d c pk signer valid hd)) (fun _ => hc.2) hi e''
        cases pk with
        | avn => rw [proxied] at e; cases e; exact hi.keep hin
        | token => exact hin _ e
        | nft => exact hin _ e
      · cases e
    | _ => simp only [exec, reduceCtorEq] at e

theorem execAll_tables (E : Env) {R : Prop} (b : BatchKind) : ∀ (cs : List Call) (o : Origin) (s s' : Chain),
    (R → ∀ c ∈ cs, ¬ Smuggles c) → Tables R s → execAll E b cs o s = some s' → Tables R s'
  | [], o, s, s', hs, hi, e => by
    rw [execAll] at e; cases e; exact hi
  | c :: cs, o, s, s', hs, hi, e => by
    rw [execAll] at e
    have hs' : R → ∀ c ∈ cs, ¬ Smuggles c := fun hR d hd => hs hR d (List.mem_cons_of_mem _ hd)
    split at e
    · rename_i s'' ex
      split at ex
      · rename_i hp
        exact execAll_tables E b cs o s'' s' hs' (exec_tables E c o s s'' (fun hR => hs hR c List.mem_cons_self) (fun _ => hp) hi ex) e
      · cases ex
    · cases b with
      | batch => rw [afterFailure] at e; cases e; exact hi
      | batchAll => rw [afterFailure] at e; cases e
      | forceBatch => exact execAll_tables E _ cs o s s' hs' hi e
end

theorem dispatch_tables {E : Env} {R c o s} (hs : R → ¬ Smuggles c) (hi : Tables R s) : Tables R (orKeep s (dispatch E c o s)) := by
  refine hi.keep (fun s' e => ?_)
  unfold dispatch at e
  split at e
  · rename_i hp
    exact exec_tables E c o s s' hs (fun _ => hp) hi e
  · cases e

theorem step_tables {E : Env} {R s} (st : Step) (hs : R → ∀ c, callOf st = some c → ¬ Smuggles c) (hi : Tables R s) : Tables R (step E s st) := by
  cases st with
  | tx a c => exact dispatch_tables (fun hR => hs hR c rfl) hi
  | unsignedTx c => exact dispatch_tables (fun hR => hs hR c rfl) hi
  | remote l k c =>
    simp only [step]
    split
    · exact dispatch_tables (fun hR => hs hR c rfl) hi
    · exact hi
  | approve i =>
    simp only [step]
    split
    · rename_i r s' hr e
      have h' := hi.setStatus e
      have hm : r ∈ s.referenda := List.mem_of_getElem? hr
      refine ⟨h'.refs, fun o c hm' => ?_, h'.refsCalls, fun hR o c hm' => ?_, h'.log⟩
      · rcases List.mem_append.mp hm' with hm' | hm'
        · exact h'.agenda o c hm'
        · cases List.mem_singleton.mp hm'; exact hi.refs r hm
      · rcases List.mem_append.mp hm' with hm' | hm'
        · exact h'.agendaCalls hR o c hm'
        · cases List.mem_singleton.mp hm'; exact hi.refsCalls hR r hm
    · exact hi
  | reject i => exact hi.keep (fun s' e => hi.setStatus e)
  | service n =>
    simp only [step]
    split
    · rename_i o c hn
      have hm : (o, c) ∈ s.agenda := List.mem_of_getElem? hn
      exact dispatch_tables (fun hR => hi.agendaCalls hR o c hm)
        ⟨hi.refs, fun o c hm => hi.agenda o c (List.mem_of_mem_eraseIdx hm), hi.refsCalls,
          fun hR o c hm => hi.agendaCalls hR o c (List.mem_of_mem_eraseIdx hm), hi.log⟩
    · exact hi

theorem genesis_tables (R : Prop) (k : Option Acct) : Tables R (genesis k) :=
  ⟨(by intro r h; cases h), (by intro o c h; cases h), (by intro _ r h; cases h), (by intro _ o c h; cases h), (by intro _ o l h; cases h)⟩

theorem run_tables {E : Env} {R : Prop} : ∀ (h : List Step) (s : Chain), (R → ∀ st ∈ h, ∀ c, callOf st = some c → ¬ Smuggles c) → Tables R s →
    Tables R (run E s h)
  | [], _, _, hi => hi
  | st :: h, s, hs, hi => run_tables h (step E s st) (fun hR x hx => hs hR x (List.mem_cons_of_mem _ hx))
      (step_tables st (fun hR => hs hR st List.mem_cons_self) hi)

/-! ### Histories without power -/

theorem step_inv {E : Env} {k L s} (st : Step) (ht : Tables False s) (hi : Inv k L s) (hk : ∀ a, s.key = some a → ¬ ActsFor E a st)
    (hv : ¬ RootVote s st) : Inv k L (step E s st) := by
  have hk' : ∀ b, k = some b → ¬ ActsFor E b st := fun b hb => hk b (hi.key.trans hb)
  cases st with
  | tx a c =>
    refine dispatch_inv ⟨(by intro e; cases e), ?_⟩ hi
    intro a' b ea eb hc
    cases ea
    exact hk' b eb hc
  | unsignedTx c => exact dispatch_inv ⟨(by intro e; cases e), (by intro a b e; cases e)⟩ hi
  | remote l kd c =>
    simp only [step]
    split
    · rename_i o ho
      refine dispatch_inv ⟨?_, ?_⟩ hi
      · intro e
        refine toOrigin_ne_root l kd ?_
        rw [ho]
        cases o <;> cases e
        rfl
      · intro a b ea eb hc
        rw [ofXcm_signed ea] at ho
        exact hk' b eb ⟨a, ho, hc⟩
    · exact hi
  | approve i =>
    simp only [step]
    split
    · rename_i r s' hr e
      have h' := hi.setStatus e
      refine ⟨⟨h'.quiet.whitelist, fun o c hm => ?_⟩, h'.key, h'.log⟩
      rcases List.mem_append.mp hm with hm | hm
      · exact h'.quiet.agenda o c hm
      · cases List.mem_singleton.mp hm
        rcases ht.refs r (List.mem_of_getElem? hr) with h | h
        · exact absurd ⟨r, hr, h⟩ hv
        · exact Or.inl h
    · exact hi
  | reject i =>
    simp only [step]
    cases e : setStatus s i .rejected with
    | none => exact hi
    | some s' => exact hi.setStatus e
  | service n =>
    simp only [step]
    split
    · rename_i o c hn
      have hm : (o, c) ∈ s.agenda := List.mem_of_getElem? hn
      have hi' := hi.erase n
      rcases hi.quiet.agenda o c hm with ⟨x, rfl⟩ | ⟨rfl, a, rfl, ha⟩
      · exact dispatch_inv ⟨(by intro e; cases e), (by intro a b e; cases e)⟩ hi'
      · rw [dispatch, if_pos (passes_root _), exec]
        refine carryOut_inv (l := .executeLower a) hi' (by simp [privileged]) (by simp [restricted]) (fun b hb => ?_)
        cases hb
        exact ha
    · exact hi

theorem run_inv {E : Env} {k L} : ∀ (h : List Step) (s : Chain), Tables False s → Inv k L s → WithoutPower E s h → Inv k L (run E s h)
  | [], _, _, hi, _ => hi
  | st :: h, s, ht, hi, hw =>
    run_inv h (step E s st) (step_tables st (fun hR => hR.elim) ht) (step_inv st ht hi hw.1 hw.2.1) hw.2.2

/-! ### Nobody acts for another -/

/-- How an account came to make a call: it is the caller's, or its proof is in the call. -/
def ByRight (E : Env) (a : Acct) (c : Call) (p : Origin × Leaf) : Prop :=
  ∃ b, p.1 = .signed b ∧ (Controls E a b ∨ ∃ k ok, provable k p.2 = true ∧ Within (.proxy k b true (.leaf p.2 ok)) c)

theorem ByRight.sub {E a c d p} (h : ByRight E a d p) (hw : ∀ e, Within e d → Within e c) : ByRight E a c p := by
  obtain ⟨b, h1, h2 | ⟨k, ok, h2, h3⟩⟩ := h
  · exact ⟨b, h1, Or.inl h2⟩
  · exact ⟨b, h1, Or.inr ⟨k, ok, h2, hw _ h3⟩⟩

/-- Only entries that satisfy `P` were added, and the key is the same. -/
structure Grew (P : Origin × Leaf → Prop) (s s' : Chain) : Prop where
  key : s'.key = s.key
  log : ∃ new, s'.log = s.log ++ new ∧ ∀ p ∈ new, P p

theorem Grew.refl {P s} : Grew P s s := ⟨rfl, [], (List.append_nil _).symm, (by intro p h; cases h)⟩

theorem Grew.trans {P s s' s''} (h : Grew P s s') (h' : Grew P s' s'') : Grew P s s'' := by
  obtain ⟨n, e, hp⟩ := h.log
  obtain ⟨n', e', hp'⟩ := h'.log
  refine ⟨h'.key.trans h.key, n ++ n', by rw [e', e, List.append_assoc], fun p hm => ?_⟩
  rcases List.mem_append.mp hm with hm | hm
  · exact hp p hm
  · exact hp' p hm

theorem Grew.mono {P Q : Origin × Leaf → Prop} {s s'} (h : Grew P s s') (hq : ∀ p, P p → Q p) : Grew Q s s' := by
  obtain ⟨n, e, hp⟩ := h.log
  exact ⟨h.key, n, e, fun p hm => hq p (hp p hm)⟩

theorem Grew.of_same {P s s'} (h1 : s'.key = s.key) (h2 : s'.log = s.log) : Grew P s s' := ⟨h1, [], by rw [h2, List.append_nil], (by intro p h; cases h)⟩

theorem Grew.setStatus {P s s' i st} (e : setStatus s i st = some s') : Grew P s s' := by
  obtain ⟨r, -, -, rfl⟩ := setStatus_inv e
  exact .of_same rfl rfl

theorem exec_leaf_grew {E : Env} {l ok o s s'} (e : exec E (.leaf l ok) o s = some s') : Grew (fun p => p = (o, l)) s s' := by
  rw [exec] at e
  split at e
  · cases e
    exact ⟨carryOut_key _ _ _, _, carryOut_log _ _ _, fun p hm => List.mem_singleton.mp hm⟩
  · cases e

theorem not_sudo_of {E : Env} {a : Acct} {s : Chain} (h : ∀ b, Controls E a b → s.key ≠ some b) : isSudo s (.signed a) = false := by
  unfold isSudo
  rw [decide_eq_false_iff_not]
  exact h a (.self a)

mutual
theorem exec_byRight (E : Env) : ∀ (c : Call) (a : Acct) (s s' : Chain), (∀ b, Controls E a b → s.key ≠ some b) →
    exec E c (.signed a) s = some s' → Grew (ByRight E a c) s s'
  | .leaf l ok, a, s, s', hk, e => (exec_leaf_grew e).mono (by
      rintro p rfl
      exact ⟨a, rfl, Or.inl (.self a)⟩)
  | .batch b cs, a, s, s', hk, e => by
    rw [exec, if_neg (by intro e; cases e)] at e
    refine (execAll_byRight E b cs a s s' hk e).mono (fun p hp => ?_)
    obtain ⟨c, hc, hp⟩ := hp
    exact hp.sub (fun d hd => .inBatch d c b cs hc hd)
  | .asDerivative i c, a, s, s', hk, e => by
    rw [exec] at e
    split at e
    · have h := exec_byRight E c (E.derive a i) s s' (fun b hb => hk b (.derived a b i hb)) e
      refine h.mono (fun p hp => ?_)
      obtain ⟨b, h1, h2 | ⟨k, ok, h2, h3⟩⟩ := hp
      · exact ⟨b, h1, Or.inl (.derived a b i h2)⟩
      · exact ⟨b, h1, Or.inr ⟨k, ok, h2, .inDerivative _ c i h3⟩⟩
    · cases e
  | .dispatchAs o' c, a, s, s', hk, e => by
    rw [exec, if_neg (by intro e; cases e)] at e; cases e
  | .withWeight c, a, s, s', hk, e => by
    rw [exec, if_neg (by intro e; cases e)] at e; cases e
  | .sudo c, a, s, s', hk, e => by
    rw [exec, not_sudo_of hk] at e; cases e
  | .sudoAs w c, a, s, s', hk, e => by
    rw [exec, not_sudo_of hk] at e; cases e
  | .setKey w, a, s, s', hk, e => by
    rw [exec, not_sudo_of hk] at e; cases e
  | .removeKey, a, s, s', hk, e => by
    rw [exec, not_sudo_of hk] at e; cases e
  | .schedule c, a, s, s', hk, e => by
    rw [exec, if_neg (by intro e; cases e)] at e; cases e
  | .cancelTask n, a, s, s', hk, e => by
    rw [exec, if_neg (by intro e; cases e)] at e; cases e
  | .submit o' c, a, s, s', hk, e => by
    rw [exec] at e
    split at e
    · cases e; exact .of_same rfl rfl
    · cases e
  | .cancelReferendum i, a, s, s', hk, e => by
    rw [exec] at e
    split at e
    · exact .setStatus e
    · cases e
  | .killReferendum i, a, s, s', hk, e => by
    rw [exec] at e
    split at e
    · exact .setStatus e
    · cases e
  | .whitelistCall h, a, s, s', hk, e => by
    rw [exec, if_neg (by intro e; cases e)] at e; cases e
  | .removeWhitelistedCall h, a, s, s', hk, e => by
    rw [exec, if_neg (by intro e; cases e)] at e; cases e
  | .dispatchWhitelisted c, a, s, s', hk, e => by
    have : mayDispatchWhitelisted (.signed a) = false := rfl
    rw [exec, this] at e
    simp at e
  | .proxy pk signer valid c, a, s, s', hk, e => by
    cases c with
    | leaf l ok =>
      rw [exec] at e
      split at e
      · rename_i hc
        rw [Bool.and_eq_true, Bool.and_eq_true] at hc
        obtain ⟨⟨hc1, rfl⟩, hc3⟩ := hc
        have hin : ∀ s'', exec E (.leaf l ok) (.signed signer) s = some s'' →
            Grew (ByRight E a (.proxy pk signer true (.leaf l ok))) s s'' := fun s'' e'' =>
          (exec_leaf_grew e'').mono (by
            rintro p rfl
            exact ⟨signer, rfl, Or.inr ⟨pk, ok, hc1, .self _⟩⟩)
        cases pk with
        | avn =>
          rw [proxied] at e
          cases ex : exec E (.leaf l ok) (.signed signer) s with
          | none => rw [ex] at e; cases e; exact .refl
          | some s'' => rw [ex] at e; cases e; exact hin _ ex
        | token => exact hin _ e
        | nft => exact hin _ e
      · cases e
    | _ => simp [exec, provableCall] at e

theorem execAll_byRight (E : Env) (b : BatchKind) : ∀ (cs : List Call) (a : Acct) (s s' : Chain), (∀ b, Controls E a b → s.key ≠ some b) →
    execAll E b cs (.signed a) s = some s' → Grew (fun p => ∃ c ∈ cs, ByRight E a c p) s s'
  | [], a, s, s', hk, e => by
    rw [execAll] at e; cases e; exact .refl
  | c :: cs, a, s, s', hk, e => by
    have tail : ∀ p, (∃ d ∈ cs, ByRight E a d p) → ∃ d ∈ c :: cs, ByRight E a d p := fun p ⟨d, hd, hp⟩ =>
      ⟨d, List.mem_cons_of_mem _ hd, hp⟩
    rw [execAll] at e
    split at e
    · rename_i s'' ex
      split at ex
      · have g := exec_byRight E c a s s'' hk ex
        have g' := execAll_byRight E b cs a s'' s' (fun b hb => by rw [g.key]; exact hk b hb) e
        exact (g.mono (fun p hp => ⟨c, List.mem_cons_self, hp⟩)).trans (g'.mono tail)
      · cases ex
    · cases b with
      | batch => rw [afterFailure] at e; cases e; exact .refl
      | batchAll => rw [afterFailure] at e; cases e
      | forceBatch => exact (execAll_byRight E _ cs a s s' hk e).mono tail
end

/-! ### The origins that votes give -/

theorem Stopped.refl {st rs} : Stopped st rs rs := fun _ => Or.inl rfl

theorem Stopped.trans {st rs rs' rs''} (h : Stopped st rs rs') (h' : Stopped st rs' rs'') : Stopped st rs rs'' := by
  intro i
  rcases h' i with e' | ⟨r', e', ho', f'⟩
  · rcases h i with e | ⟨r, e, ho, f⟩
    · exact Or.inl (e'.trans e)
    · exact Or.inr ⟨r, e, ho, e'.trans f⟩
  · rcases h i with e | ⟨r, e, ho, f⟩
    · exact Or.inr ⟨r', e.symm.trans e', ho', f'⟩
    · rw [e'] at f
      cases f
      exact Or.inr ⟨r, e, ho, f'⟩

theorem Stopped.set {s s' i st} (e : setStatus s i st = some s') : Stopped st s.referenda s'.referenda := by
  obtain ⟨r, hr, ho, rfl⟩ := setStatus_inv e
  intro j
  by_cases hj : i = j
  · subst hj
    refine Or.inr ⟨r, hr, ho, ?_⟩
    have : i < s.referenda.length := by
      rw [List.getElem?_eq_some_iff] at hr
      exact hr.1
    simp [this]
  · exact Or.inl (by simp [hj])

/-- The only thing that may have changed is the status of referenda. -/
def OnlyStops (st : Status) (s s' : Chain) : Prop := ∃ rs, s' = { s with referenda := rs } ∧ Stopped st s.referenda rs

theorem OnlyStops.refl {st s} : OnlyStops st s s := ⟨s.referenda, rfl, .refl⟩

theorem OnlyStops.trans {st s s' s''} (h : OnlyStops st s s') (h' : OnlyStops st s' s'') : OnlyStops st s s'' := by
  obtain ⟨rs, rfl, h⟩ := h
  obtain ⟨rs', rfl, h'⟩ := h'
  exact ⟨rs', rfl, h.trans h'⟩

theorem OnlyStops.set {st s s' i} (e : setStatus s i st = some s') : OnlyStops st s s' := by
  have h := Stopped.set e
  obtain ⟨r, hr, ho, rfl⟩ := setStatus_inv e
  exact ⟨_, rfl, h⟩

/-- Origins that no call but the governance ones accepts. -/
def Mute (o : Origin) : Prop := o ≠ .root ∧ o ≠ .unsigned ∧ ∀ a, o ≠ .signed a

/-- A relation on chains that the calls open to the origin `o` keep to. -/
structure Fits (o : Origin) (T : Chain → Chain → Prop) (W : Chain → Prop) : Prop where
  refl : ∀ s, T s s
  trans : ∀ s s' s'', T s s' → T s' s'' → T s s''
  keeps : ∀ s s', W s → T s s' → W s'
  cancel : mayCancel o = true → ∀ s s' i, setStatus s i .cancelled = some s' → T s s'
  kill : mayKill o = true → ∀ s s' i, setStatus s i .killed = some s' → T s s'
  white : mayDispatchWhitelisted o = true → ∀ s, W s → s.whitelist = []

mutual
theorem exec_mute (E : Env) {T W} : ∀ (c : Call) (o : Origin) (s s' : Chain), Mute o → Fits o T W → W s → exec E c o s = some s' → T s s'
  | .leaf l ok, o, s, s', hm, hf, hW, e => by
    rw [exec] at e
    split at e
    · rename_i hc
      rw [Bool.and_eq_true] at hc
      exfalso
      obtain ⟨h1, h2, h3⟩ := hm
      cases hn : need l <;> rw [hn] at hc <;> cases o <;>
        first | exact h1 rfl | exact h2 rfl | exact h3 _ rfl | exact absurd hc.1 Bool.false_ne_true
    · cases e
  | .batch b cs, o, s, s', hm, hf, hW, e => by
    rw [exec, if_neg hm.2.1] at e
    exact execAll_mute E b cs o s s' hm hf hW e
  | .asDerivative i c, o, s, s', hm, hf, hW, e => by
    cases o with
    | signed a => exact absurd rfl (hm.2.2 a)
    | _ => simp only [exec, reduceCtorEq] at e
  | .dispatchAs o' c, o, s, s', hm, hf, hW, e => by
    rw [exec, if_neg hm.1] at e; cases e
  | .withWeight c, o, s, s', hm, hf, hW, e => by
    rw [exec, if_neg hm.1] at e; cases e
  | .sudo c, o, s, s', hm, hf, hW, e => by
    cases o <;> first | exact absurd rfl hm.1 | exact absurd rfl (hm.2.2 _) | simp [exec, isSudo] at e
  | .sudoAs w c, o, s, s', hm, hf, hW, e => by
    cases o <;> first | exact absurd rfl hm.1 | exact absurd rfl (hm.2.2 _) | simp [exec, isSudo] at e
  | .setKey w, o, s, s', hm, hf, hW, e => by
    cases o <;> first | exact absurd rfl hm.1 | exact absurd rfl (hm.2.2 _) | simp [exec, isSudo] at e
  | .removeKey, o, s, s', hm, hf, hW, e => by
    cases o <;> first | exact absurd rfl hm.1 | exact absurd rfl (hm.2.2 _) | simp [exec, isSudo] at e
  | .schedule c, o, s, s', hm, hf, hW, e => by
    rw [exec, if_neg hm.1] at e; cases e
  | .cancelTask n, o, s, s', hm, hf, hW, e => by
    rw [exec, if_neg hm.1] at e; cases e
  | .submit o' c, o, s, s', hm, hf, hW, e => by
    cases o with
    | signed a => exact absurd rfl (hm.2.2 a)
    | _ => simp only [exec, reduceCtorEq] at e
  | .cancelReferendum i, o, s, s', hm, hf, hW, e => by
    rw [exec] at e
    split at e
    · rename_i hc; exact hf.cancel hc s s' i e
    · cases e
  | .killReferendum i, o, s, s', hm, hf, hW, e => by
    rw [exec] at e
    split at e
    · rename_i hc; exact hf.kill hc s s' i e
    · cases e
  | .whitelistCall h, o, s, s', hm, hf, hW, e => by
    rw [exec, if_neg hm.1] at e; cases e
  | .removeWhitelistedCall h, o, s, s', hm, hf, hW, e => by
    rw [exec, if_neg hm.1] at e; cases e
  | .dispatchWhitelisted c, o, s, s', hm, hf, hW, e => by
    rw [exec] at e
    split at e
    · rename_i hc
      rw [Bool.and_eq_true] at hc
      rw [hf.white hc.1 s hW] at hc
      exact absurd hc.2 (by simp)
    · cases e
  | .proxy pk signer valid c, o, s, s', hm, hf, hW, e => by
    cases o with
    | signed a => exact absurd rfl (hm.2.2 a)
    | _ => simp only [exec, reduceCtorEq] at e

theorem execAll_mute (E : Env) {T W} (b : BatchKind) : ∀ (cs : List Call) (o : Origin) (s s' : Chain), Mute o → Fits o T W → W s →
    execAll E b cs o s = some s' → T s s'
  | [], o, s, s', hm, hf, hW, e => by
    rw [execAll] at e; cases e; exact hf.refl s
  | c :: cs, o, s, s', hm, hf, hW, e => by
    rw [execAll] at e
    split at e
    · rename_i s'' ex
      split at ex
      · have t := exec_mute E c o s s'' hm hf hW ex
        exact hf.trans _ _ _ t (execAll_mute E b cs o s'' s' hm hf (hf.keeps _ _ hW t) e)
      · cases ex
    · cases b with
      | batch => rw [afterFailure] at e; cases e; exact hf.refl s
      | batchAll => rw [afterFailure] at e; cases e
      | forceBatch => exact execAll_mute E _ cs o s s' hm hf hW e
end

theorem dispatch_mute {E : Env} {T W c o s s'} (hm : Mute o) (hf : Fits o T W) (hW : W s) (e : dispatch E c o s = some s') : T s s' := by
  unfold dispatch at e
  split at e
  · exact exec_mute E c o s s' hm hf hW e
  · cases e

/-! ## Theorems -/

/-- C128. From any state of the chain in which nothing is pending under root (other than lowers their owners asked for) and no call is whitelisted:
as long as no one who controls the sudo key makes a call and no referendum for root is approved, whatever transactions are sent, by whomever, with whatever
nesting of batches, derived accounts, proxies and whitelisted calls, whatever messages come from other chains, and whatever other referenda are approved and
carried out: the sudo key stays, no privileged call is made, no collator joins or leaves by itself, lowers are executed only for accounts that asked for them, and
the chain stays in such a state. -/
theorem C128_no_authority_without_sudo_or_vote (E : Env) (k₀ : Option Acct) (before h : List Step)
    (hq : Quiet (run E (genesis k₀) before)) (hw : WithoutPower E (run E (genesis k₀) before) h) :
    (run E (genesis k₀) (before ++ h)).key = (run E (genesis k₀) before).key ∧
    Quiet (run E (genesis k₀) (before ++ h)) ∧
    ∃ new, (run E (genesis k₀) (before ++ h)).log = (run E (genesis k₀) before).log ++ new ∧
      ∀ o l, (o, l) ∈ new → l ∉ privileged ∧ l ∉ restricted ∧ ∀ a, l = .executeLower a → Asked (run E (genesis k₀) (before ++ h)) a := by
  have ht : Tables False (run E (genesis k₀) before) := run_tables before _ (fun hR => hR.elim) (genesis_tables False k₀)
  have hi := run_inv h _ ht ⟨hq, rfl, [], (List.append_nil _).symm, (by intro o l hm; cases hm)⟩ hw
  have e : run E (genesis k₀) (before ++ h) = run E (run E (genesis k₀) before) h := by
    unfold run; rw [List.foldl_append]
  rw [e]
  exact ⟨hi.key, hi.quiet, hi.log⟩

/-- C128, from the start of the chain: before the first call of the sudo key and the first approved referendum for root, none of those calls was made. -/
theorem C128_from_genesis (E : Env) (k₀ : Option Acct) (h : List Step) (hw : WithoutPower E (genesis k₀) h) (o : Origin) (l : Leaf)
    (hm : (o, l) ∈ (run E (genesis k₀) h).log) : l ∉ privileged ∧ l ∉ restricted := by
  have hq : Quiet (genesis k₀) := ⟨rfl, (by intro o c h; cases h)⟩
  obtain ⟨-, -, new, e, hn⟩ := C128_no_authority_without_sudo_or_vote E k₀ [] h hq hw
  rw [List.nil_append] at e hn
  rw [e] at hm
  have hm : (o, l) ∈ new := by simpa [run, genesis] using hm
  exact ⟨(hn o l hm).1, (hn o l hm).2.1⟩

/-- C128: what the sudo key and votes for root can do, they can do: a privileged call is made when the key asks for it, and when a referendum for root that
was approved is served. -/
theorem C128_sudo_can (E : Env) (s : Chain) (k : Acct) (hk : s.key = some k) (l : Leaf) (hl : l ∈ privileged) :
    (step E s (.tx k (.sudo (.leaf l true)))).log = s.log ++ [(.root, l)] := by
  have hn : accepts (need l) .root = true := by rw [need_of_privileged l hl]; rfl
  have hp : passes (.signed k) (.sudo (.leaf l true)) = true := rfl
  have hs : isSudo s (.signed k) = true := by simp [isSudo, hk]
  simp only [step, dispatch, hp, if_true, exec, hs, hn, Bool.and_true, orKeep, carryOut_log]

/-- C128, the other way in: a referendum for root, approved and served. -/
theorem C128_root_vote_can (E : Env) (s : Chain) (a : Acct) (l : Leaf) (hl : l ∈ privileged) (ha : s.agenda = []) (hr : s.referenda = []) :
    (run E s [.tx a (.submit .root (.leaf l true)), .approve 0, .service 0]).log = s.log ++ [(.root, l)] := by
  have hn : accepts (need l) .root = true := by rw [need_of_privileged l hl]; rfl
  have e1 : step E s (.tx a (.submit .root (.leaf l true))) = { s with referenda := [⟨.root, .leaf l true, .ongoing⟩] } := by
    simp [step, dispatch, passes, filter, exec, trackFor, orKeep, hr]
  have e2 : step E { s with referenda := [⟨.root, .leaf l true, .ongoing⟩] } (.approve 0) =
      { s with referenda := [⟨.root, .leaf l true, .approved⟩], agenda := [(.root, .leaf l true)] } := by
    simp [step, setStatus, ha]
  simp only [run, List.foldl, e1, e2]
  simp [step, dispatch, passes, exec, hn, orKeep, carryOut_log]

/-- C129. In every history, with whatever use of sudo and of votes: no collator joins or leaves the candidates by calls of its own, unless the sudo key or root
makes that call in its name, directly under `sudo_as` or `dispatch_as`. -/
theorem C129_candidates_do_not_join_or_leave_by_themselves (E : Env) (k₀ : Option Acct) (h : List Step)
    (hs : ∀ st ∈ h, ∀ c, callOf st = some c → ¬ Smuggles c) (o : Origin) (l : Leaf) (hm : (o, l) ∈ (run E (genesis k₀) h).log) : l ∉ restricted :=
  (run_tables (R := True) h _ (fun _ => hs) (genesis_tables True k₀)).log trivial o l hm

/-- C129: the exception. The sudo key can make any of the four calls in the name of any account, past the filter. -/
theorem C129_sudo_as_passes_the_filter (E : Env) (s : Chain) (k w : Acct) (hk : s.key = some k) (l : Leaf) (hl : l ∈ restricted) :
    (step E s (.tx k (.sudoAs w (.leaf l true)))).log = s.log ++ [(.signed w, l)] := by
  have hn : accepts (need l) (.signed w) = true := by
    have : ∀ l ∈ restricted, need l = .signed := by decide
    rw [this l hl]; rfl
  have hp : passes (.signed k) (.sudoAs w (.leaf l true)) = true := rfl
  have hs : isSudo s (.signed k) = true := by simp [isSudo, hk]
  simp only [step, dispatch, hp, if_true, exec, hs, hn, Bool.and_true, orKeep, carryOut_log]

/-- C130. Referenda ask for root or one of the four governance origins, and nothing is ever carried out later under an account's origin: no vote and no scheduled
call acts as a user. -/
theorem C130_votes_give_no_account (E : Env) (k₀ : Option Acct) (h : List Step) :
    (∀ r ∈ (run E (genesis k₀) h).referenda, r.origin = .root ∨ ∃ x, r.origin = .custom x) ∧
    ∀ o c, (o, c) ∈ (run E (genesis k₀) h).agenda → o = .root ∨ ∃ x, o = .custom x :=
  have ht : Tables False (run E (genesis k₀) h) := run_tables h _ (fun hR => hR.elim) (genesis_tables False k₀)
  ⟨ht.refs, ht.agenda⟩

theorem mute_custom (x : Custom) : Mute (.custom x) := ⟨(by intro e; cases e), (by intro e; cases e), (by intro a e; cases e)⟩

/-- C130. The track of the general admin gives no power at all: none of these calls has any effect under its origin. -/
theorem C130_general_admin_can_do_nothing (E : Env) (c : Call) (s s' : Chain) (e : dispatch E c (.custom .generalAdmin) s = some s') : s' = s := by
  refine (dispatch_mute (T := fun s s' => s' = s) (W := fun _ => True) (mute_custom _) ⟨fun _ => rfl, ?_, fun _ _ _ _ => trivial, ?_, ?_, ?_⟩
    trivial e)
  · intro s s' s'' h h'; exact h'.trans h
  · intro h; exact absurd h (by decide)
  · intro h; exact absurd h (by decide)
  · intro h; exact absurd h (by decide)

/-- C130. A referendum canceller can cancel ongoing referenda and do nothing else. -/
theorem C130_canceller_only_cancels (E : Env) (c : Call) (s s' : Chain) (e : dispatch E c (.custom .referendumCanceller) s = some s') :
    ∃ rs, s' = { s with referenda := rs } ∧ Stopped .cancelled s.referenda rs := by
  refine (dispatch_mute (T := OnlyStops .cancelled) (W := fun _ => True) (mute_custom _) ⟨fun _ => .refl, ?_, fun _ _ _ _ => trivial, ?_, ?_, ?_⟩
    trivial e)
  · intro s s' s'' h h'; exact h.trans h'
  · intro _ s s' i e; exact .set e
  · intro h; exact absurd h (by decide)
  · intro h; exact absurd h (by decide)

/-- C130. A referendum killer can kill ongoing referenda and do nothing else. -/
theorem C130_killer_only_kills (E : Env) (c : Call) (s s' : Chain) (e : dispatch E c (.custom .referendumKiller) s = some s') :
    ∃ rs, s' = { s with referenda := rs } ∧ Stopped .killed s.referenda rs := by
  refine (dispatch_mute (T := OnlyStops .killed) (W := fun _ => True) (mute_custom _) ⟨fun _ => .refl, ?_, fun _ _ _ _ => trivial, ?_, ?_, ?_⟩
    trivial e)
  · intro s s' s'' h h'; exact h.trans h'
  · intro h; exact absurd h (by decide)
  · intro _ s s' i e; exact .set e
  · intro h; exact absurd h (by decide)

/-- C130. A whitelisted caller can do nothing while root has whitelisted nothing. -/
theorem C130_whitelisted_caller_needs_root (E : Env) (c : Call) (s s' : Chain) (hw : s.whitelist = [])
    (e : dispatch E c (.custom .whitelistedCaller) s = some s') : s' = s := by
  refine (dispatch_mute (T := fun s s' => s' = s) (W := fun s => s.whitelist = []) (mute_custom _) ⟨fun _ => rfl, ?_, ?_, ?_, ?_, ?_⟩
    hw e)
  · intro s s' s'' h h'; exact h'.trans h
  · intro s s' h e; rw [e]; exact h
  · intro h; exact absurd h (by decide)
  · intro h; exact absurd h (by decide)
  · intro _ s h; exact h

/-- C130. A call that arrives in a message under an origin other than an account's has no effect. -/
theorem C130_messages_have_no_power_of_their_own (E : Env) (l : Xcm.Location) (k : Xcm.OriginKind) (o : Xcm.Origin) (c : Call) (s : Chain)
    (ho : Xcm.toOrigin l k = some o) (hn : ∀ a, o ≠ .signed a) : step E s (.remote l k c) = s := by
  have hr : o ≠ .root := by rintro rfl; exact toOrigin_ne_root l k ho
  have hm : Mute (ofXcm o) := by
    refine ⟨?_, ?_, ?_⟩
    · intro e; cases o <;> cases e; exact hr rfl
    · intro e; cases o <;> cases e
    · intro a e; exact hn a (ofXcm_signed e)
  simp only [step, ho]
  cases e : dispatch E c (ofXcm o) s with
  | none => rfl
  | some s' =>
    refine (dispatch_mute (T := fun s s' => s' = s) (W := fun _ => True) hm ⟨fun _ => rfl, ?_, fun _ _ _ _ => trivial, ?_, ?_, ?_⟩ trivial e)
    · intro s s' s'' h h'; exact h'.trans h
    all_goals intro h; cases o <;> first | exact absurd rfl hr | exact absurd rfl (hn _) | exact absurd h Bool.false_ne_true

/-- C130. An unsigned transaction does one thing or nothing: one of the calls meant for the validators' software. -/
theorem C130_unsigned_calls (E : Env) (c : Call) (s : Chain) :
    step E s (.unsignedTx c) = s ∨
    ∃ l ∈ workerCalls, (∃ ok, c = .leaf l ok) ∧ step E s (.unsignedTx c) = { s with log := s.log ++ [(.unsigned, l)] } := by
  simp only [step]
  cases e : dispatch E c .unsigned s with
  | none => exact Or.inl rfl
  | some s' =>
    right
    unfold dispatch at e
    split at e
    · cases c with
      | leaf l ok =>
        rw [exec] at e
        split at e
        · rename_i hc
          rw [Bool.and_eq_true] at hc
          cases e
          have hn : ∀ l : Leaf, accepts (need l) .unsigned = true → l ∈ workerCalls ∧ (carryOut l .unsigned s) = { s with log := s.log ++ [(.unsigned, l)] } := by
            intro l hl
            cases l <;> first | exact ⟨by decide, rfl⟩ | exact absurd hl Bool.false_ne_true
          exact ⟨l, (hn l hc.1).1, ⟨ok, rfl⟩, (hn l hc.1).2⟩
        · cases e
      | _ => simp [exec, isSudo, mayCancel, mayKill, mayDispatchWhitelisted] at e
    · cases e

theorem provable_iff (k : ProxyKind) (l : Leaf) : provable k l = true ↔ l ∈ proven k := by
  cases k <;> cases l <;> simp [provable, proven]

/-- C131. Nobody acts for another: a call carried out in a transaction of an account that does not control the sudo key is made by that account, by an account
derived from it, or by an account that signed that very call for a proxy. -/
theorem C131_nobody_acts_for_another (E : Env) (a : Acct) (c : Call) (s : Chain) (hk : ∀ b, Controls E a b → s.key ≠ some b) :
    ∃ new, (step E s (.tx a c)).log = s.log ++ new ∧
      ∀ o l, (o, l) ∈ new → ∃ b, o = .signed b ∧
        (Controls E a b ∨ ∃ k ok, l ∈ proven k ∧ Within (.proxy k b true (.leaf l ok)) c) := by
  have hg : Grew (ByRight E a c) s (step E s (.tx a c)) := by
    simp only [step]
    cases e : dispatch E c (.signed a) s with
    | none => exact .refl
    | some s' =>
      unfold dispatch at e
      split at e
      · exact exec_byRight E c a s s' hk e
      · cases e
  obtain ⟨new, e, hp⟩ := hg.log
  refine ⟨new, e, fun o l hm => ?_⟩
  obtain ⟨b, h1, h2⟩ := hp (o, l) hm
  refine ⟨b, h1, h2.imp id ?_⟩
  rintro ⟨k, ok, h3, h4⟩
  exact ⟨k, ok, (provable_iff k l).mp h3, h4⟩

/-- C131, what accounts can do: every account can make the open calls and those that carry a proof in its own name, whatever else is going on. -/
theorem C131_accounts_make_their_own_calls (E : Env) (a : Acct) (s : Chain) (l : Leaf) (hl : l ∈ openCalls ∨ ∃ k, l ∈ proven k) :
    (step E s (.tx a (.leaf l true))).log = s.log ++ [(.signed a, l)] := by
  have h1 : need l = .signed ∧ filter (.leaf l true) = true := by
    rcases hl with h | ⟨k, h⟩
    · revert l; decide
    · cases k <;> revert l <;> decide
  have hp : passes (.signed a) (.leaf l true) = true := by simp [passes, h1.2]
  simp [step, dispatch, hp, exec, h1.1, accepts, orKeep, carryOut_log]

/-- C131, what a proxy can do: the calls that carry a proof, with a valid one, in the signer's name; nothing else. -/
theorem C131_proxies_run_proven_calls (E : Env) (a b : Acct) (k : ProxyKind) (valid : Bool) (c : Call) (s : Chain) :
    (∀ l, c = .leaf l true → l ∈ proven k → valid = true → (step E s (.tx a (.proxy k b valid c))).log = s.log ++ [(.signed b, l)]) ∧
    ((∀ l ok, c = .leaf l ok → l ∈ proven k → valid = false) → step E s (.tx a (.proxy k b valid c)) = s) := by
  constructor
  · rintro l rfl hl rfl
    have h1 : need l = .signed ∧ filter (.leaf l true) = true := by cases k <;> revert l <;> decide
    have hp : passes (.signed b) (.leaf l true) = true := by simp [passes, h1.2]
    have hq : passes (.signed a) (.proxy k b true (.leaf l true)) = true := rfl
    have hv : provableCall k (.leaf l true) = true := (provable_iff k l).mpr hl
    simp only [step, dispatch, hq, if_true, exec, hv, hp, Bool.and_true, h1.1, accepts]
    cases k <;> simp [proxied, orKeep, carryOut_log]
  · intro h
    have hq : passes (.signed a) (.proxy k b valid c) = true := rfl
    have hv : (provableCall k c && valid) = false := by
      cases c with
      | leaf l ok =>
        by_cases hl : provable k l = true
        · rw [h l ok rfl ((provable_iff k l).mp hl)]; simp
        · simp [provableCall, hl]
      | _ => rfl
    simp only [step, dispatch, hq, if_true, exec, hv, Bool.false_and, Bool.false_eq_true, if_false, orKeep]

/-! ## Examples -/

/-- Account number `n`. -/
def exA (n : Nat) : Acct := Vector.replicate 32 (UInt8.ofNat n)

/-- One derived account for all. -/
def exE : Env := ⟨fun _ _ => exA 99, fun _ => 7⟩

theorem exControls {a b : Acct} (h : Controls exE a b) : b = a ∨ b = exA 99 := by
  induction h with
  | self a => exact Or.inl rfl
  | derived a b i _ ih =>
    rcases ih with h | h
    · exact Or.inr h
    · exact Or.inr h

/-- Account 5 tries what it can: a batch with a privileged call, a sudo call, a restricted call and a derived account in it; a lower; a referendum for the
general admin, which is approved and served; and a message from the relay chain. -/
def exHistory : List Step :=
  [.tx (exA 5) (.batch .forceBatch
     [.leaf .addCollator true, .sudo (.leaf .systemSetCode true), .leaf .joinCandidates true,
      .asDerivative 0 (.batch .batch [.leaf .balancesTransfer true, .leaf .joinCandidates true, .leaf .nominate true]),
      .proxy .avn (exA 6) true (.leaf .signedTransfer true), .proxy .avn (exA 6) true (.leaf .addCollator true)]),
   .tx (exA 5) (.leaf .scheduleDirectLower true),
   .service 0,
   .tx (exA 5) (.submit (.custom .generalAdmin) (.leaf .addCollator true)),
   .tx (exA 5) (.submit .root (.leaf .addCollator true)),
   .approve 0,
   .service 0,
   .remote Xcm.relayLocation .native (.leaf .addCollator true)]

/-- What was carried out. -/
example : (run exE (genesis (some (exA 1))) exHistory).log =
    [(.signed (exA 99), .balancesTransfer), (.signed (exA 6), .signedTransfer), (.signed (exA 5), .scheduleDirectLower),
     (.root, .executeLower (exA 5))] := by decide +kernel

/-- The history meets the hypotheses of C128: it starts from genesis and nobody in it has power. -/
theorem exWithoutPower : WithoutPower exE (genesis (some (exA 1))) exHistory := by
  have key5 : ∀ s : Chain, s.key = some (exA 1) → ∀ k c, s.key = some k → ¬ ActsFor exE k (.tx (exA 5) c) := by
    intro s hs k c hk h
    rw [hs] at hk
    cases hk
    rcases exControls h with e | e <;> exact absurd e (by decide +kernel)
  refine ⟨fun k => key5 _ (by decide +kernel) k _, fun h => h, ?_⟩
  refine ⟨fun k => key5 _ (by decide +kernel) k _, fun h => h, ?_⟩
  refine ⟨fun _ _ h => h, fun h => h, ?_⟩
  refine ⟨fun k => key5 _ (by decide +kernel) k _, fun h => h, ?_⟩
  refine ⟨fun k => key5 _ (by decide +kernel) k _, fun h => h, ?_⟩
  refine ⟨fun _ _ h => h, ?_, ?_⟩
  · rintro ⟨r, hr, ho⟩
    have e : (Option.map Referendum.origin (step exE (step exE (step exE (step exE (step exE (genesis (some (exA 1))) exHistory[0]) exHistory[1])
      exHistory[2]) exHistory[3]) exHistory[4]).referenda[0]?) = some (.custom .generalAdmin) := by decide +kernel
    have e' := congrArg (Option.map Referendum.origin) hr
    rw [Option.map_some, ho] at e'
    exact absurd (e.symm.trans e') (by decide)
  · refine ⟨fun _ _ h => h, fun h => h, ?_⟩
    refine ⟨?_, fun h => h, trivial⟩
    rintro k - ⟨a, h, -⟩
    exact absurd h (by simp [Xcm.toOrigin])

/-- With the key, the same privileged call goes through, and with an approved referendum for root. -/
example : (run exE (genesis (some (exA 1))) [.tx (exA 1) (.sudo (.leaf .addCollator true))]).log = [(.root, .addCollator)] ∧
    (run exE (genesis none) [.tx (exA 5) (.submit .root (.batch .batchAll [.leaf .addCollator true])), .approve 0, .service 0]).log =
      [(.root, .addCollator)] := by decide +kernel

/-- A whitelisted call: root lists it, the whitelisted caller's track brings it about once. -/
example : (run exE (genesis (some (exA 1)))
    [.tx (exA 1) (.sudo (.whitelistCall 7)),
     .tx (exA 5) (.submit (.custom .whitelistedCaller) (.batch .batchAll [.dispatchWhitelisted (.leaf .addCollator true)])),
     .tx (exA 5) (.submit (.custom .whitelistedCaller) (.dispatchWhitelisted (.leaf .addCollator true))),
     .approve 0, .service 0, .approve 1, .service 0]).log = [(.root, .addCollator)] := by decide +kernel

/-- A call that smuggles: the exception of C129 happens. -/
example : Smuggles (.batch .batch [.sudoAs (exA 5) (.leaf .joinCandidates true)]) :=
  ⟨.joinCandidates, true, by decide, Or.inl ⟨exA 5, .inBatch _ _ _ _ List.mem_cons_self (.self _)⟩⟩

/-- The canceller's track stops a referendum. -/
example : ((run exE (genesis none)
    [.tx (exA 5) (.submit .root (.leaf .addCollator true)), .tx (exA 5) (.submit (.custom .referendumCanceller) (.cancelReferendum 0)),
     .approve 1, .service 0, .approve 0]).referenda.map (·.status)) = [.cancelled, .approved] := by decide +kernel

end Verif.Authority
