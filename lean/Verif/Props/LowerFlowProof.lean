import Verif.Props.LowerFlow

/-! # Property C100 continued: where a claimable proof comes from -/

namespace Verif.LowerFlow
open Verif.TokenManager (Env Step LowersOk stageCount NotRootLower LowerCall)
open Verif.BridgeTx (Request LowerReq Obs outstanding Answers Tidy notify)
open Verif.Lower

variable {X : Type} (p : Params X)

/-! ### Burned -/

/-- In state `b` lower `i` is due with call `c`; executing it (which leads to state `a`) took exactly `c.amount` of `c.token`
from `c.sender` and nothing from anybody else. -/
structure Burned (b a : TokenManager.State) (i : Nat) (c : LowerCall) : Prop where
  due : b.scheduled i = some c
  done : a.scheduled i = none
  token : ∀ t x, a.bal t x + (if t = c.token ∧ x = c.sender ∧ t ≠ b.avtContract then c.amount else 0) = b.bal t x
  native : ∀ x, a.avt x + (if x = c.sender ∧ c.token = b.avtContract then c.amount else 0) = b.avt x

/-- Where a held lower comes from, one step back. -/
theorem held_back (s : State X) (op : Op X) (hi : Inv s) (hn : ∀ env c i, op ≠ .token env (.rootExecuteLower c i))
    (i : Nat) (ps : List UInt8) (h : Held (step p s op).world.1 i ps) :
    Held s.world.1 i ps ∨ ∃ env c, op = .token env (.dispatchScheduled i) ∧
      Burned s.world.1 (step p s op).world.1 i c ∧
      ps = concatLowerData ⟨c.token, c.amount, c.t1Recipient, i, c.sender, env.now⟩ := by
  have hv := step_view p s op hi hn
  generalize step p s op = s' at hv h
  cases hv with
  | idle op s' hw => rw [hw] at h; exact .inl h
  | bridge op answered obs new ht hp =>
    left
    have := (bridge_world p hi hp (fun w => ∀ qs, Held w i qs → Held s.world.1 i qs) (fun _ h => h) ?_ ?_).2
    · exact this ps h
    · intro v j qs hj _ hh rs hr
      refine hh rs ?_
      unfold Held toReady at hr
      by_cases e : i = j
      · subst e
        simp only [upd_same] at hr
        rcases hr with hr | hr | hr
        · cases hr
        · injection hr with hr; subst hr; exact .inl hj
        · exact .inr (.inr hr)
      · simp only [upd_ne _ _ e] at hr; exact hr
    · intro v j qs hj hh rs hr
      refine hh rs ?_
      unfold Held toFailed at hr
      by_cases e : i = j
      · subst e
        simp only [upd_same] at hr
        rcases hr with hr | hr | hr
        · cases hr
        · exact .inr (.inl hr)
        · injection hr with hr; subst hr; exact .inl hj
      · simp only [upd_ne _ _ e] at hr; exact hr
  | call env st b s' hst ht hw =>
    rw [hw] at h ⊢
    have hv := TokenManager.step_view { env with bridgeOk := b } s.world.1 st
    generalize TokenManager.step { env with bridgeOk := b } s.world.1 st = r at hv h
    generalize s.world.1 = w at hv ⊢
    have drop : ∀ (f : Nat → Option (List UInt8)) j, upd f j none i = some ps → f i = some ps := by
      intro f j h; rw [upd_apply] at h; split at h
      · cases h
      · exact h
    cases hv with
    | regenReady q j qs hd hr =>
      left
      unfold Held at h
      rcases h with h | h | h
      · simp only [upd_apply] at h
        split at h
        · rename_i e; subst e; exact .inr (.inl (hr.trans h))
        · exact .inl h
      · exact .inr (.inl (drop _ _ h))
      · exact .inr (.inr h)
    | regenFailed q j qs hd hr hf =>
      left
      unfold Held at h
      rcases h with h | h | h
      · simp only [upd_apply] at h
        split at h
        · rename_i e; subst e; exact .inr (.inr (hf.trans h))
        · exact .inl h
      · exact .inr (.inl h)
      · exact .inr (.inr (drop _ _ h))
    | rootLower c j => exact absurd rfl (hn env c j)
    | schedLower c j bal' avt' hc hd hb =>
      unfold Held at h
      rcases h with h | h | h
      · simp only [upd_apply] at h
        split at h
        · rename_i e; subst e
          injection h with h
          refine .inr ⟨env, c, rfl, ⟨hc, by simp, ?_, ?_⟩, h.symm⟩
          · intro t x
            rcases hb with ⟨ht, hb, _⟩ | ⟨ht, _, hb, hle⟩
            · simp only [hb]; rw [if_neg (by rintro ⟨e, _, hne⟩; exact hne (e.trans ht))]; rfl
            · simp only [hb, TokenManager.upd2_apply]
              by_cases e : t = c.token ∧ x = c.sender
              · obtain ⟨rfl, rfl⟩ := e; simp [ht]; omega
              · rw [if_neg e, if_neg (fun h => e ⟨h.1, h.2.1⟩)]; rfl
          · intro x
            rcases hb with ⟨ht, _, hb, _, hle, _⟩ | ⟨ht, hb, _⟩
            · simp only [hb, upd_apply]
              by_cases e : x = c.sender
              · subst e; simp [ht]; omega
              · simp [e]
            · simp [hb, ht]
        · exact .inl (.inl h)
      · exact .inl (.inr (.inl h))
      · exact .inl (.inr (.inr h))
    | claim j qs hk hr =>
      left
      rcases h with h | h | h
      · exact .inl h
      · exact .inr (.inl (drop _ _ h))
      · exact .inr (.inr h)
    | revert t v a j qs bal' avt' hk hr =>
      left
      rcases h with h | h | h
      · exact .inl h
      · exact .inr (.inl (drop _ _ h))
      · exact .inr (.inr h)
    | revertFail t v a j qs err hk hr =>
      left
      rcases h with h | h | h
      · exact .inl h
      · exact .inr (.inl (drop _ _ h))
      · exact .inr (.inr h)
    | proofReady => exact absurd rfl (hst _ _ _)
    | proofTooLong => exact absurd rfl (hst _ _ _)
    | proofFailed => exact absurd rfl (hst _ _ _)
    | _ => exact .inl h

/-- An id that was handed out and is not scheduled is never scheduled again. -/
theorem unscheduled_step (s : State X) (op : Op X) (hi : Inv s) (hn : ∀ env c i, op ≠ .token env (.rootExecuteLower c i))
    (i : Nat) (h1 : i < s.world.1.lowerNonce) (h2 : s.world.1.scheduled i = none) :
    (step p s op).world.1.scheduled i = none := by
  have hv := step_view p s op hi hn
  generalize step p s op = s' at hv
  cases hv with
  | idle op s' hw => rw [hw]; exact h2
  | bridge op answered obs new ht hp =>
    exact (bridge_world p hi hp (fun w => w.scheduled i = none) h2 (fun v j qs _ _ h => h) (fun v j qs _ h => h)).2
  | call env st b s' hst ht hw =>
    rw [hw]
    have hv := TokenManager.step_view { env with bridgeOk := b } s.world.1 st
    generalize TokenManager.step { env with bridgeOk := b } s.world.1 st = r at hv
    generalize s.world.1 = w at h1 h2 hv
    have drop : ∀ j, upd w.scheduled j none i = none := by
      intro j; rw [upd_apply]; split
      · rfl
      · exact h2
    cases hv with
    | direct f t a t1 => simp only [upd_ne _ _ (Nat.ne_of_lt h1)]; exact h2
    | signedLower st p f t a t1 => simp only [upd_ne _ _ (Nat.ne_of_lt h1)]; exact h2
    | schedLower c j => exact drop j
    | schedFail c j => exact drop j
    | cancel j => exact drop j
    | _ => exact h2

theorem unscheduled_run (s0 : State X) (hg : Genesis s0) (before after : List (Op X)) (hr : Regular s0 (before ++ after))
    (i : Nat) (h1 : i < (run p s0 before).world.1.lowerNonce) (h2 : (run p s0 before).world.1.scheduled i = none) :
    (run p s0 (before ++ after)).world.1.scheduled i = none ∧
      i < (run p s0 (before ++ after)).world.1.lowerNonce := by
  induction after using List.reverseRecOn with
  | nil => rw [List.append_nil]; exact ⟨h2, h1⟩
  | append_singleton after op ih =>
    rw [← List.append_assoc] at hr ⊢
    obtain ⟨hr1, hr2⟩ := hr.init
    obtain ⟨ih1, ih2⟩ := ih hr1
    obtain ⟨iv, ib⟩ := inv_run p s0 hg _ hr1
    have hlen := hr.2
    simp only [List.length_append, List.length_singleton] at hlen
    rw [List.length_append] at ib
    obtain ⟨_, g2, _⟩ := inv_step p _ op iv hr2 (by omega)
    rw [run_snoc]
    exact ⟨unscheduled_step p _ op iv hr2 i ih2 ih1, by omega⟩

/-- **C100.** Whatever the bridge can ever be asked to sign, and whatever can ever be claimed, was burned: for every held
lower there is one point of the history at which this lower was executed, taking exactly its amount of its token from its
sender, and its parameters are the packed data of that execution. The id is never scheduled again afterwards, so it is
burned only once. -/
theorem C100_every_proof_was_burned (s0 : State X) (hg : Genesis s0) (ops : List (Op X)) (hr : Regular s0 ops)
    (i : Nat) (ps : List UInt8) (h : Held (run p s0 ops).world.1 i ps) :
    ∃ pre env post c, ops = pre ++ .token env (.dispatchScheduled i) :: post ∧
      Burned (run p s0 pre).world.1 (run p s0 (pre ++ [.token env (.dispatchScheduled i)])).world.1 i c ∧
      ps = concatLowerData ⟨c.token, c.amount, c.t1Recipient, i, c.sender, env.now⟩ ∧
      ∀ later rest, post = later ++ rest →
        (run p s0 (pre ++ .token env (.dispatchScheduled i) :: later)).world.1.scheduled i = none := by
  have key : ∃ pre env post c, ops = pre ++ .token env (.dispatchScheduled i) :: post ∧
      Burned (run p s0 pre).world.1 (run p s0 (pre ++ [.token env (.dispatchScheduled i)])).world.1 i c ∧
      ps = concatLowerData ⟨c.token, c.amount, c.t1Recipient, i, c.sender, env.now⟩ := by
    induction ops using List.reverseRecOn with
    | nil =>
      exfalso
      have h4 := hg.2.2.2 i
      change Held s0.world.1 i ps at h
      unfold stageCount at h4
      rcases h with h | h | h <;> rw [h] at h4 <;> simp at h4
    | append_singleton ops op ih =>
      obtain ⟨hr1, hr2⟩ := hr.init
      rw [run_snoc] at h
      rcases held_back p _ op (inv_run p s0 hg _ hr1).1 hr2 i ps h with h | ⟨env, c, rfl, hb, he⟩
      · obtain ⟨pre, env, post, c, rfl, h2, h3⟩ := ih hr1 h
        exact ⟨pre, env, post ++ [op], c, by simp, h2, h3⟩
      · exact ⟨ops, env, [], c, rfl, by rw [run_snoc]; exact hb, he⟩
  obtain ⟨pre, env, post, c, rfl, h2, h3⟩ := key
  refine ⟨pre, env, post, c, rfl, h2, h3, ?_⟩
  rintro later rest rfl
  have e : pre ++ Op.token env (.dispatchScheduled i) :: (later ++ rest) =
      (pre ++ [.token env (.dispatchScheduled i)] ++ later) ++ rest := by simp
  have hreg : Regular s0 (pre ++ [.token env (.dispatchScheduled i)] ++ later) := by
    rw [e] at hr
    refine ⟨fun env c j hm => hr.1 env c j (List.mem_append_left _ hm), ?_⟩
    have := hr.2
    rw [List.length_append] at this
    omega
  have hreg1 : Regular s0 (pre ++ [.token env (.dispatchScheduled i)]) := by
    refine ⟨fun env c j hm => hreg.1 env c j (List.mem_append_left _ hm), ?_⟩
    have := hreg.2
    rw [List.length_append] at this
    omega
  have hreg0 := hreg1.init.1
  have hdue : i < (run p s0 pre).world.1.lowerNonce := by
    refine Classical.byContradiction (fun hge => ?_)
    have := ((inv_run p s0 hg _ hreg0).1.ok i).2 (by omega)
    unfold stageCount at this
    rw [h2.due] at this
    simp at this
  have hb : i < (run p s0 (pre ++ [.token env (.dispatchScheduled i)])).world.1.lowerNonce := by
    obtain ⟨iv, ib⟩ := inv_run p s0 hg _ hreg0
    have hlen := hreg1.2
    simp only [List.length_append, List.length_singleton] at hlen
    obtain ⟨_, g2, _⟩ := inv_step p _ (.token env (.dispatchScheduled i)) iv hreg1.init.2 (by omega)
    rw [run_snoc]; omega
  have := (unscheduled_run p s0 hg _ later hreg i hb h2.done).1
  rw [show pre ++ Op.token env (.dispatchScheduled i) :: later = pre ++ [.token env (.dispatchScheduled i)] ++ later by simp]
  exact this

/-! ### Signed -/

/-- During `ops` author `x`, an author at that time, confirmed request `i` with signature `sig`, which recovers to `x`'s key
over message hash `h`. -/
def ConfirmedBy (s0 : State X) (ops : List (Op X)) (i h sig x : Nat) : Prop :=
  ∃ pre post, ops = pre ++ .bridge (.confirm i sig x) :: post ∧
    Avn.isValidator (run p s0 pre).avn.validators x = true ∧ p.signer h sig = some x

theorem ConfirmedBy.mono {s0 : State X} {ops : List (Op X)} {i h sig x : Nat} (op : Op X)
    (hc : ConfirmedBy p s0 ops i h sig x) : ConfirmedBy p s0 (ops ++ [op]) i h sig x := by
  obtain ⟨pre, post, rfl, h1, h2⟩ := hc
  exact ⟨pre, post ++ [op], by simp, h1, h2⟩

/-- What is known about the active request when it is a lower proof. -/
def ConfInv (s0 : State X) (ops : List (Op X)) : Prop :=
  ∀ req q, (run p s0 ops).active = some req → req.request = .lower q →
    req.confirmations.Nodup ∧ (∃ n, p.lowerHash q.params n = some req.msgHash) ∧
    ∀ sig ∈ req.confirmations, ∃ x, ConfirmedBy p s0 ops q.lowerId req.msgHash sig x

/-- A proof for lower `i` with parameters `ps` was completed during `ops`: the last confirmation made it
available, with pairwise different signatures of at least a supermajority of the then author set, each submitted for this
request by an account that was an author then, over the hash of exactly these parameters. -/
def Completed (s0 : State X) (ops : List (Op X)) (i : Nat) (ps : List UInt8) : Prop :=
  ∃ pre sig x post sigs h n, ops = pre ++ .bridge (.confirm i sig x) :: post ∧
    Obs.lowerResult i palletId (some (beVal ps, sigs)) ∈ (run p s0 (pre ++ [.bridge (.confirm i sig x)])).log ∧
    sigs.Nodup ∧ Avn.requiredForSupermajority (run p s0 pre).avn.validators.length ≤ sigs.length ∧
    p.lowerHash (beVal ps) n = some h ∧
    ∀ g ∈ sigs, ∃ y, ConfirmedBy p s0 (pre ++ [.bridge (.confirm i sig x)]) i h g y

theorem Completed.mono {s0 : State X} {ops : List (Op X)} {i : Nat} {ps : List UInt8} (op : Op X)
    (hc : Completed p s0 ops i ps) : Completed p s0 (ops ++ [op]) i ps := by
  obtain ⟨pre, sig, x, post, sigs, h, n, rfl, r⟩ := hc
  exact ⟨pre, sig, x, post ++ [op], sigs, h, n, by simp, r⟩

theorem confInv_run (s0 : State X) (hg : Genesis s0) (ops : List (Op X)) (hr : Regular s0 ops) : ConfInv p s0 ops := by
  induction ops using List.reverseRecOn with
  | nil => intro req r ha; simp [run, hg.1] at ha
  | append_singleton ops op ih =>
    obtain ⟨hr1, hr2⟩ := hr.init
    have ih := ih hr1
    have hv := step_view p (run p s0 ops) op (inv_run p s0 hg _ hr1).1 hr2
    rw [← run_snoc p s0 ops op] at hv
    unfold ConfInv at ih ⊢
    generalize hs : run p s0 ops = s at hv ih
    generalize hs' : run p s0 (ops ++ [op]) = s' at hv
    have keep : ∀ req q, s.active = some req → req.request = .lower q →
        req.confirmations.Nodup ∧ (∃ n, p.lowerHash q.params n = some req.msgHash) ∧
        ∀ sig ∈ req.confirmations, ∃ x, ConfirmedBy p s0 (ops ++ [op]) q.lowerId req.msgHash sig x := by
      intro req q ha hq
      obtain ⟨i1, i2, i3⟩ := ih req q ha hq
      refine ⟨i1, i2, fun sig hsig => ?_⟩
      obtain ⟨x, hx⟩ := i3 sig hsig
      exact ⟨x, hx.mono p op⟩
    have hfresh : ∀ req q, BridgeTx.Fresh (bridgeEnv p) req.request req → req.request = .lower q →
        req.confirmations.Nodup ∧ (∃ n, p.lowerHash q.params n = some req.msgHash) ∧
        ∀ sig ∈ req.confirmations, ∃ x, ConfirmedBy p s0 (ops ++ [op]) q.lowerId req.msgHash sig x := by
      rintro req q ⟨_, f2, _, _, f5, _⟩ hq
      rw [f2]
      exact ⟨by simp, f5 q hq, by simp⟩
    cases hv with
    | idle op s' hw ho hl ha => intro req q hreq hq; rw [ha] at hreq; exact keep req q hreq hq
    | call env st b s' hst ht hw hc ha =>
      intro req q hreq hq
      rcases ha with ha | ⟨q', a, ha, hf⟩
      · rw [ha] at hreq; exact keep req q hreq hq
      · rw [ha] at hreq; injection hreq with hreq; subst hreq
        exact hfresh _ q (by rw [hf.1]; exact hf) hq
    | bridge bop answered obs new ht hp =>
      have hv := BridgeTx.step_view (bridgeEnv p) s bop
      generalize BridgeTx.step (bridgeEnv p) s bop = s' at hv hp ht hs'
      cases hv with
      | quiet op s' ha hq hl hn => intro req q hreq hq; rw [ha] at hreq; exact keep req q hreq hq
      | queued op r s' ha hlen ha' hq hl hn => intro req q hreq hq; rw [ha'] at hreq; exact keep req q hreq hq
      | activated op r a s' ha ha' hf hq hl hn =>
        intro req q hreq hq
        rw [ha'] at hreq; injection hreq with hreq; subst hreq
        exact hfresh _ q (by rw [hf.1]; exact hf) hq
      | confirmed id sig author req ha hid hauth hver hnew =>
        intro req' q hreq hq
        injection hreq with hreq
        subst hreq
        have hq' : req.request = .lower q := hq
        obtain ⟨k1, k2, k3⟩ := keep req q ha hq'
        have hidq : q.lowerId = id := by rw [hq'] at hid; simpa [BridgeTx.Request.idMatches] using hid
        refine ⟨?_, k2, ?_⟩
        · rw [List.nodup_append]
          refine ⟨k1, by simp, ?_⟩
          intro x hx y hy hxy
          have : y = sig := by simpa using hy
          subst this; subst hxy; exact hnew hx
        · intro x hx
          rcases List.mem_append.1 hx with hx | hx
          · exact k3 x hx
          · have : x = sig := by simpa using hx
            subst this
            exact ⟨author, ops, [], by rw [hidq], by rw [hs]; exact hauth, BridgeTx.verify_iff (bridgeEnv p) hver⟩
      | lowerDone id sig author req q s' ha hr hid hauth hver hnew hen hfin =>
        obtain ⟨_, _, _, _, _, hf⟩ := hfin
        intro req r hreq hr
        exact hfresh req r (hf req hreq) hr
      | hashed id h author req d ha hid hd h0 hsend =>
        intro req' r hreq hr
        injection hreq with hreq
        subst hreq
        exact keep req r ha hr
      | corroborated id ok hv author rep req d ha hid hd hrep hauth hns hnew =>
        intro req' r hreq hr
        injection hreq with hreq
        subst hreq
        exact keep req r ha hr
      | decided id ok hv author rep req d q s' ha hr hid hd hrep hauth hns hnew hen hfin =>
        obtain ⟨_, _, _, _, _, hf⟩ := hfin
        intro req r hreq hr
        exact hfresh req r (hf req hreq) hr
      | removed req s' ha hfin =>
        obtain ⟨_, _, _, _, _, hf⟩ := hfin
        intro req r hreq hr
        exact hfresh req r (hf req hreq) hr
      | reset op req q a s' ha hr ha' hf hop hq hl hn =>
        intro req r hreq hr
        rw [ha'] at hreq; injection hreq with hreq; subst hreq
        exact hfresh _ r (by rw [hf.1]; exact hf) hr

/-- A step that logs a finished proof completes it. -/
theorem completes (s0 : State X) (hg : Genesis s0) (ops : List (Op X)) (hr : Regular s0 ops)
    (bop : BridgeTx.Step (World X)) (answered : List Request) (obs : List Obs) (new : List Request)
    (hstep : run p s0 (ops ++ [.bridge bop]) = BridgeTx.step (bridgeEnv p) (run p s0 ops) bop)
    (hp : BridgeTx.Advance (bridgeEnv p) (run p s0 ops) (BridgeTx.step (bridgeEnv p) (run p s0 ops) bop) answered obs new)
    (i : Nat) (ps : List UInt8) (sigs : List Nat) (hm : Obs.lowerResult i palletId (some (beVal ps, sigs)) ∈ obs) :
    Completed p s0 (ops ++ [.bridge bop]) i ps := by
  have hinv := confInv_run p s0 hg ops hr
  unfold ConfInv at hinv
  have hlog := hp.log
  have hm' : Obs.lowerResult i palletId (some (beVal ps, sigs)) ∈ new.map Obs.accepted ++ obs := by simp [hm]
  generalize new.map Obs.accepted ++ obs = more at hlog hm'
  have hv := BridgeTx.step_view (bridgeEnv p) (run p s0 ops) bop
  rw [← hstep] at hlog hv
  generalize hs : run p s0 ops = s at hv hinv hlog
  generalize hs' : run p s0 (ops ++ [.bridge bop]) = s' at hv hlog
  have hdr : ∀ dropped : List Request, Obs.lowerResult i palletId (some (beVal ps, sigs)) ∉ dropped.map BridgeTx.failObs := by
    intro dropped h
    obtain ⟨q, _, hq⟩ := List.mem_map.1 h
    cases q <;> simp [BridgeTx.failObs] at hq
  have hfin : ∀ o, BridgeTx.Finished (bridgeEnv p) s o s' → Obs.lowerResult i palletId (some (beVal ps, sigs)) = o := by
    intro o hf
    obtain ⟨dropped, hl, _⟩ := hf
    rw [hl, List.append_assoc] at hlog
    rw [← List.append_cancel_left hlog] at hm'
    simp only [List.singleton_append, List.mem_cons] at hm'
    rcases hm' with h | h
    · exact h
    · exact absurd h (hdr dropped)
  have hnil : s'.log = s.log → False := by
    intro h
    rw [h] at hlog
    have : more = [] := by simpa using hlog
    simp [this] at hm'
  cases hv with
  | quiet op s' ha hq hl hn => exact (hnil hl).elim
  | queued op q s' ha hlen ha' hq hl hn =>
    rw [hl] at hlog; rw [← List.append_cancel_left hlog] at hm'; simp at hm'
  | activated op q a s' ha ha' hf hq hl hn =>
    rw [hl] at hlog; rw [← List.append_cancel_left hlog] at hm'; simp at hm'
  | confirmed id sig author req ha => exact (hnil rfl).elim
  | lowerDone id' sig author req r s' ha hr hid hauth hver hnew hen hf =>
    have ho := hfin _ hf
    simp only [Obs.lowerResult.injEq, Option.some.injEq, Prod.mk.injEq] at ho
    obtain ⟨e1, e2, e3, e4⟩ := ho
    obtain ⟨k1, ⟨n, k2⟩, k3⟩ := hinv req r ha hr
    subst e1
    subst hid
    refine ⟨ops, sig, author, [], sigs, req.msgHash, n, rfl, ?_, ?_, ?_, by rw [e3]; exact k2, ?_⟩
    · rw [hs', hlog]; simp [hm']
    · rw [e4, List.nodup_append]
      refine ⟨k1, by simp, ?_⟩
      intro x hx y hy hxy
      have : y = sig := by simpa using hy
      subst this; subst hxy; exact hnew hx
    · rw [hs, e4]; exact hen
    · rw [e4]
      intro x hx
      rcases List.mem_append.1 hx with hx | hx
      · obtain ⟨y, hy⟩ := k3 x hx
        exact ⟨y, hy.mono p _⟩
      · have : x = sig := by simpa using hx
        subst this
        exact ⟨author, ops, [], rfl, by rw [hs]; exact hauth, BridgeTx.verify_iff (bridgeEnv p) hver⟩
  | hashed id h author req d ha => exact (hnil rfl).elim
  | corroborated i ok hv author rep req d ha => exact (hnil rfl).elim
  | decided i ok hv author rep req d r s' ha hr hid hd hrep hauth hns hnew hen hf =>
    have := hfin _ hf; simp at this
  | removed req s' ha hf =>
    have := hfin _ hf
    cases hrq : req.request <;> simp [hrq, BridgeTx.failObs] at this
  | reset op req q a s' ha hr ha' hf hop hq hl hn => exact (hnil hl).elim

/-- **C100.** Every lower that can be claimed has a completed proof, for exactly the parameters stored with it. -/
theorem C100_claimable_is_signed (s0 : State X) (hg : Genesis s0) (ops : List (Op X)) (hr : Regular s0 ops) (i : Nat)
    (ps : List UInt8) (h : (run p s0 ops).world.1.ready i = some ps) : Completed p s0 ops i ps := by
  induction ops using List.reverseRecOn with
  | nil =>
    exfalso
    have h4 := hg.2.2.2 i
    change s0.world.1.ready i = some ps at h
    unfold stageCount at h4
    rw [h] at h4; simp at h4
  | append_singleton ops op ih =>
    obtain ⟨hr1, hr2⟩ := hr.init
    have hi := (inv_run p s0 hg _ hr1).1
    have ih := ih hr1
    have hv := step_view p (run p s0 ops) op hi hr2
    have hsnoc := run_snoc p s0 ops op
    rw [hsnoc] at h
    generalize hs' : step p (run p s0 ops) op = s' at hv h
    cases hv with
    | idle op s' hw => rw [hw] at h; exact (ih h).mono p op
    | call env st b s' hst ht hw =>
      refine (ih ?_).mono p _
      rw [hw] at h
      have hv := TokenManager.step_view { env with bridgeOk := b } (run p s0 ops).world.1 st
      generalize TokenManager.step { env with bridgeOk := b } (run p s0 ops).world.1 st = r at hv h
      generalize (run p s0 ops).world.1 = w at hv ⊢
      have drop : ∀ (f : Nat → Option (List UInt8)) j, upd f j none i = some ps → f i = some ps := by
        intro f j h; rw [upd_apply] at h; split at h
        · cases h
        · exact h
      cases hv with
      | regenReady q j qs hd hr => exact drop _ _ h
      | claim j qs hk hr => exact drop _ _ h
      | revert t v a j qs bal' avt' hk hr => exact drop _ _ h
      | revertFail t v a j qs err hk hr => exact drop _ _ h
      | proofReady => exact absurd rfl (hst _ _ _)
      | _ => exact h
    | bridge bop answered obs new ht hp =>
      have hc := (bridge_world p hi hp (fun w => ∀ qs, w.ready i = some qs →
        (run p s0 ops).world.1.ready i = some qs ∨ ∃ sigs, Obs.lowerResult i palletId (some (beVal qs, sigs)) ∈ obs)
        (fun _ h => .inl h) ?_ ?_).2 ps h
      · rcases hc with hc | ⟨sigs, hc⟩
        · exact (ih hc).mono p _
        · exact completes p s0 hg ops hr1 bop answered obs new (by rw [hsnoc]; exact hs') hp i ps sigs hc
      · intro v j qs hj hsig hh rs hr
        unfold toReady at hr
        by_cases e : i = j
        · subst e
          simp only [upd_same] at hr
          injection hr with hr; subst hr; exact .inr hsig
        · simp only [upd_ne _ _ e] at hr; exact hh rs hr
      · intro v j qs hj hh rs hr
        exact hh rs hr

end Verif.LowerFlow
