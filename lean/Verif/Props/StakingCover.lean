import Verif.Props.Staking
import Mathlib.Data.List.Induction

/-!
# C84: what is staked is covered by the staker's own free balance

`free` is the account's free balance in the balances pallet, which also contains what is locked. It is changed by transfers, fees and
rewards, which the ledger sees as arbitrary new values (`setFree`); the balances pallet guarantees that such a change never goes below a
lock (`RespectsLocks`).
-/

namespace Verif.Staking

/-! ### Specification -/

/-- Every lock is covered by the free balance. -/
def Covered (s : St) : Prop := ∀ a, s.nlock a ≤ s.free a ∧ s.clock a ≤ s.free a

/-- No balance change of the history takes away locked funds. -/
def RespectsLocks (P : Par) (s : St) (ops : List Op) : Prop :=
  ∀ pre a v post, ops = pre ++ .setFree a v :: post → (run P s pre).nlock a ≤ v ∧ (run P s pre).clock a ≤ v

/-- What an account has staked: its own bond and its nominations. -/
def staked (s : St) (a : Nat) : Nat :=
  ((s.cands a).map (fun r => r.info.bond)).getD 0 + ((s.noms a).map (fun r => bondSum r.noms)).getD 0

/-! ### Helpers -/

variable {P : Par} {s s' : St}

theorem sumAmt_le_of_dominated : ∀ (l m : List Bond), Uniq l → Uniq m →
    (∀ b ∈ l, ∃ x, (⟨b.owner, x⟩ : Bond) ∈ m ∧ b.amount ≤ x) → sumAmt l ≤ sumAmt m
  | [], m, _, _, _ => by simp
  | b :: l, m, hl, hm, h => by
    obtain ⟨x, hx, hle⟩ := h b (by simp)
    have hl' : Uniq l := (List.nodup_cons.1 hl).2
    have hb : b.owner ∉ l.map Bond.owner := (List.nodup_cons.1 hl).1
    have hperm := List.perm_cons_erase hx
    have hm' : Uniq (m.erase ⟨b.owner, x⟩) := List.Nodup.sublist (List.Sublist.map _ List.erase_sublist) hm
    have ih := sumAmt_le_of_dominated l (m.erase ⟨b.owner, x⟩) hl' hm' (by
      intro y hy
      obtain ⟨z, hz, hyz⟩ := h y (by simp [hy])
      refine ⟨z, ?_, hyz⟩
      have hne : (⟨y.owner, z⟩ : Bond) ≠ ⟨b.owner, x⟩ := by
        intro e
        have : y.owner = b.owner := by injection e
        exact hb (this ▸ List.mem_map_of_mem hy)
      exact (List.mem_erase_of_ne hne).2 hz)
    have hsum : sumAmt m = x + sumAmt (m.erase ⟨b.owner, x⟩) := by
      unfold sumAmt
      rw [(hperm.map Bond.amount).sum_nat]
      simp
    rw [sumAmt_cons]
    omega

theorem nlock_le_of_dominated (h : GInv P s) (h' : GInv P s') {n : Nat}
    (hd : ∀ c x', HasN s'.noms n c x' → ∃ x, HasN s.noms n c x ∧ x' ≤ x) : s'.nlock n ≤ s.nlock n := by
  cases e' : s'.noms n with
  | none => rw [h'.n.none n e']; exact Nat.zero_le _
  | some r' =>
    have g' := h'.n.some n r' e'
    cases e : s.noms n with
    | none =>
      exfalso
      cases hl : r'.noms with
      | nil => exact g'.ne hl
      | cons b l =>
        obtain ⟨x, ⟨r, hr, _⟩, _⟩ := hd b.owner b.amount ⟨r', e', by rw [hl]; exact List.mem_cons_self ..⟩
        rw [e] at hr; cases hr
    | some r =>
      have g := h.n.some n r e
      rw [g'.lock, g'.total, g.lock, g.total]
      refine sumAmt_le_of_dominated _ _ g'.sorted.uniq g.sorted.uniq ?_
      intro b hb
      obtain ⟨x, ⟨q, hq, hx⟩, hle⟩ := hd b.owner b.amount ⟨r', e', hb⟩
      rw [e] at hq; cases hq
      exact ⟨x, hx, hle⟩

/-- The call adds nominated stake for `n`. -/
def Op.adds : Op → Nat → Prop
  | .nominate m _ _ _ _, n => m = n
  | .splitNominate m _ _ _, n => m = n
  | .bondExtra m _ _, n => m = n
  | .bondExtraAll m _ _, n => m = n
  | _, _ => False

theorem Op.nominates_adds {op : Op} {n c : Nat} (h : op.nominates n c) : op.adds n := by
  cases op <;> first | exact h.1 | exact h | exact False.elim h

theorem Op.bondsMore_adds {op : Op} {n c : Nat} (h : op.bondsMore n c) : op.adds n := by
  cases op <;> first | exact h.1 | exact h | exact False.elim h

theorem nlock_not_adds (hP : P.Sane) (h : Inv P s) (op : Op) {n : Nat} (hn : ¬ op.adds n) :
    (step P s op).nlock n ≤ s.nlock n := by
  have st := step_ok hP.ok hP.per.1 h op
  refine nlock_le_of_dominated h.g st.inv.g ?_
  intro c x' hx
  cases st.pair n c with
  | same hs => exact ⟨x', (hs.1 x').1 hx, Nat.le_refl _⟩
  | nominated who => exact absurd (Op.nominates_adds who) hn
  | more who => exact absurd (Op.bondsMore_adds who) hn
  | scheduled who bond => exact ⟨x', (bond x').1 hx, Nat.le_refl _⟩
  | cancelled who bond => exact ⟨x', (bond x').1 hx, Nat.le_refl _⟩
  | executed who hs =>
    obtain ⟨q, _, _, _, _, a, ha, _, _, hx'⟩ := hs
    obtain ⟨_, e⟩ := (hx' x').1 hx
    exact ⟨a, ha, by omega⟩
  | kicked m who other was hg => exact absurd hx (hg.1 x')
  | left hint who r w cand status due hg => exact absurd hx (hg.1 x')

theorem nomFree_eq (h : GInv P s) (n : Nat) : s.nomFree n = s.free n - s.nlock n := by
  unfold St.nomFree
  cases e : s.noms n with
  | none => rw [h.n.none n e]; rfl
  | some r => rw [(h.n.some n r e).lock]; rfl

theorem nlock_adds (hP : P.Sane) (h : Inv P s) {op : Op} {n : Nat} (hn : op.adds n) (hc : s.nlock n ≤ s.free n) :
    (step P s op).nlock n ≤ s.free n := by
  have hf := nomFree_eq h.g n
  unfold step
  cases ho : call P s op with
  | none => exact hc
  | some s' =>
    show s'.nlock n ≤ s.free n
    cases op with
    | nominate m c a x y =>
      obtain rfl : m = n := hn
      simp only [call, nominateCall] at ho
      by_cases he : P.enabled = true
      · rw [if_pos he] at ho
        have := nominate_ok hP.ok hP.per.1 h.g ho
        have h1 := this.lock; have h2 := this.enough
        omega
      · rw [if_neg he] at ho; cases ho
    | splitNominate m ts a b =>
      obtain rfl : m = n := hn
      obtain ⟨_, _, h1, h2⟩ := splitAndNominate_ok hP.ok hP.per.1 h.g ho
      have hlock := h2.lock
      have hsum : ((ts.zip (shares (perCollator ts.length a) (a - perCollator ts.length a * ts.length) b
          ts.length ts.length 0 a)).map Prod.snd).sum ≤ a := by
        rw [List.map_snd_zip (by rw [shares_length]; exact Nat.le_refl _)]
        cases ts with
        | nil => simp [shares]
        | cons t ts => exact Nat.le_of_eq (shares_sum (by simp))
      omega
    | bondExtra m c k =>
      obtain rfl : m = n := hn
      simp only [call, bondExtraCall] at ho
      by_cases he : P.enabled = true
      · rw [if_pos he] at ho
        have := bondExtra_ok hP.ok h.g ho
        have h1 := this.lock; have h2 := this.enough
        omega
      · rw [if_neg he] at ho; cases ho
    | bondExtraAll m a b =>
      obtain rfl : m = n := hn
      obtain ⟨r, hr, _, h1, _, h2⟩ := bondExtraAll_ok hP.ok h.g ho
      have hlock := h2.lock
      have hsum : (((r.noms.map Bond.owner).zip (shares (perCollator r.noms.length a) (a - perCollator r.noms.length a * r.noms.length) b
          r.noms.length r.noms.length 0 a)).map Prod.snd).sum ≤ a := by
        rw [List.map_snd_zip (by rw [shares_length, List.length_map]; exact Nat.le_refl _)]
        have hne := (h.g.n.some m r hr).ne
        exact Nat.le_of_eq (shares_sum (List.length_pos_iff.2 hne))
      omega
    | _ => exact absurd hn (by simp [Op.adds])

theorem clock_step (hP : P.Sane) (h : Inv P s) (op : Op) (c : Nat) (hc : s.clock c ≤ s.free c) :
    (step P s op).clock c ≤ s.free c := by
  have st := step_ok hP.ok hP.per.1 h op
  have l := h.g.c.lock c
  have l' := st.inv.g.c.lock c
  cases st.cand c with
  | absent h0 h1 => rw [l', h1]; exact Nat.zero_le _
  | same r r' h0 h1 b => rw [l', h1]; rw [h0] at l; simp at l ⊢; omega
  | joined bond hint reg who h0 r' h1 b =>
    rw [l', h1]
    simp only [Option.map_some, Option.getD_some, b]
    subst who
    unfold step at h1
    cases ho : call P s (.join c bond hint reg) with
    | none => rw [ho] at h1; simp only [Option.getD_none] at h1; rw [h0] at h1; cases h1
    | some s' => exact (join_ok hP.ok h.g ho).enough
  | status who r r' h0 h1 b => rw [l', h1]; rw [h0] at l; simp at l ⊢; omega
  | leaving hint who r r' h0 h1 b => rw [l', h1]; rw [h0] at l; simp at l ⊢; omega
  | left hint who r w h0 h1 => rw [l', h1]; exact Nat.zero_le _
  | more k who r r' h0 h1 b =>
    subst who
    unfold step
    cases ho : call P s (.candBondExtra c k) with
    | none => exact hc
    | some s' =>
      obtain ⟨r0, ow, hk, _, hen⟩ := candBondExtra_ok h.g ho
      show s'.clock c ≤ _
      rw [hk, upd_same]
      have e : s.cands c = some r0 := ow.was
      unfold St.candFree at hen
      rw [e] at hen l
      simp only [Option.map_some, Option.getD_some] at hen l
      omega
  | unbondScheduled k who r r' h0 h1 b => rw [l', h1]; rw [h0] at l; simp at l ⊢; omega
  | unbondExecuted who r r' q h0 h1 was due b => rw [l', h1]; rw [h0] at l; simp at l ⊢; omega
  | unbondCancelled who r r' h0 h1 b => rw [l', h1]; rw [h0] at l; simp at l ⊢; omega

theorem covered_step (hP : P.Sane) (h : Inv P s) (hc : Covered s) (op : Op)
    (hop : ∀ a v, op = .setFree a v → s.nlock a ≤ v ∧ s.clock a ≤ v) : Covered (step P s op) := by
  have st := step_ok hP.ok hP.per.1 h op
  rcases st.free with hf | ⟨a, v, rfl, hf⟩
  · intro a
    rw [hf]
    refine ⟨?_, clock_step hP h op a (hc a).2⟩
    by_cases hn : op.adds a
    · exact nlock_adds hP h hn (hc a).1
    · exact Nat.le_trans (nlock_not_adds hP h op hn) (hc a).1
  · intro b
    have := hop a v rfl
    show s.nlock b ≤ (upd s.free a v) b ∧ s.clock b ≤ (upd s.free a v) b
    by_cases e : b = a
    · subst e; rw [upd_same]; exact this
    · rw [upd_ne _ _ e]; exact hc b

/-! ### C84 -/

/-- **C84.** In every history of calls in which the balances pallet protects locked funds, all that an account has staked (as a candidate or
as a nominator) is covered by its own free balance. -/
theorem C84_stake_is_covered (P : Par) (hP : P.Sane) (delay mt mc : Nat) (free : Nat → Nat) (hm : P.minPer ≤ mt) (ops : List Op)
    (hr : RespectsLocks P (St.init delay mt mc free) ops) (a : Nat) :
    staked (run P (St.init delay mt mc free) ops) a ≤ (run P (St.init delay mt mc free) ops).free a := by
  have hc : Covered (run P (St.init delay mt mc free) ops) := by
    induction ops using List.reverseRecOn with
    | nil => intro b; exact ⟨Nat.zero_le _, Nat.zero_le _⟩
    | append_singleton ops op ih =>
      rw [run_snoc]
      refine covered_step hP (run_inv hP.ok hP.per.1 (init_inv hm) ops) (ih ?_) op ?_
      · intro pre b v post e
        exact hr pre b v (post ++ [op]) (by rw [e]; simp)
      · intro b v e
        exact hr ops b v [] (by rw [e])
  have hi : Inv P (run P (St.init delay mt mc free) ops) := run_inv hP.ok hP.per.1 (init_inv hm) ops
  generalize run P (St.init delay mt mc free) ops = s at hc hi
  unfold staked
  have l := hi.g.c.lock a
  cases e : s.noms a with
  | none =>
    rw [← l]
    simpa using (hc a).2
  | some r =>
    rw [hi.g.excl a (by rw [e]; rfl)]
    have g := hi.g.n.some a r e
    have : bondSum r.noms = s.nlock a := by rw [g.lock, g.total]; rfl
    simp only [Option.map_none, Option.getD_none, Option.map_some, Option.getD_some, Nat.zero_add, this]
    exact (hc a).1

/-- **C84** (refusal): a call that would stake more than the account's free balance beyond what it has staked already is refused without
effect: nominating, bonding more, spreading over several collators, joining as a candidate, raising a candidate's own bond. -/
theorem C84_overdraft_is_refused (P : Par) (hP : P.Sane) (s : St) (hs : Reach P s) (a amount : Nat) (h0 : amount ≠ 0)
    (h : s.free a < staked s a + amount) :
    (∀ c hc hn, step P s (.nominate a c amount hc hn) = s) ∧ (∀ c, step P s (.bondExtra a c amount) = s) ∧
    (∀ ts blk, step P s (.splitNominate a ts amount blk) = s) ∧ (∀ blk, step P s (.bondExtraAll a amount blk) = s) ∧
    (∀ hint reg, step P s (.join a amount hint reg) = s) ∧
    (step P s (.candBondExtra a amount) = s) := by
  have hi := hs.inv hP
  have nof : s.cands a = none → ¬ amount ≤ s.nomFree a := by
    intro hc hle
    rw [nomFree_eq hi.g a] at hle
    unfold staked at h
    rw [hc] at h
    cases e : s.noms a with
    | none => rw [e] at h; rw [hi.g.n.none a e] at hle; simp at h; omega
    | some r =>
      have g := hi.g.n.some a r e
      have : bondSum r.noms = s.nlock a := by rw [g.lock, g.total]; rfl
      rw [e] at h
      simp only [Option.map_none, Option.getD_none, Option.map_some, Option.getD_some, this] at h
      omega
  have excl' : ∀ {t : St}, GInv P t → (∀ c x, HasN t.noms a c x → t.cands a = none) := by
    intro t g c x hx
    obtain ⟨r, hr, _⟩ := hx
    exact g.excl a (by rw [hr]; rfl)
  have stay : ∀ op, (∀ s', call P s op = some s' → s' = s) → step P s op = s := by
    intro op hop
    unfold step
    cases ho : call P s op with
    | none => rfl
    | some s' => exact hop s' ho
  refine ⟨fun c hc hn => stay _ ?_, fun c => stay _ ?_, fun ts blk => stay _ ?_, fun blk => stay _ ?_, fun hint reg => stay _ ?_, stay _ ?_⟩
  · intro s' ho
    simp only [call, nominateCall] at ho
    by_cases he : P.enabled = true
    · rw [if_pos he] at ho
      have sp := nominate_ok hP.ok hP.per.1 hi.g ho
      have hx := excl' sp.inv c amount ((sp.own c amount).2 (Or.inl ⟨rfl, rfl⟩))
      have : s.cands a = none := by
        cases e : s.cands a with
        | none => rfl
        | some r => obtain ⟨r', h1, _⟩ := sp.same a r e; rw [hx] at h1; cases h1
      exact absurd sp.enough (nof this)
    · rw [if_neg he] at ho; cases ho
  · intro s' ho
    simp only [call, bondExtraCall] at ho
    by_cases he : P.enabled = true
    · rw [if_pos he] at ho
      have sp := bondExtra_ok hP.ok hi.g ho
      obtain ⟨x, hx, _⟩ := sp.bond
      exact absurd sp.enough (nof (excl' hi.g c x hx))
    · rw [if_neg he] at ho; cases ho
  · intro s' ho
    obtain ⟨_, _, h1, sp⟩ := splitAndNominate_ok hP.ok hP.per.1 hi.g ho
    cases ts with
    | nil =>
      simp only [call, splitAndNominate] at ho
      split at ho <;> try cases ho
      split at ho <;> try cases ho
      split at ho <;> try cases ho
      rfl
    | cons t ts =>
      exfalso
      have hl : 0 < (shares (perCollator (t :: ts).length amount) (amount - perCollator (t :: ts).length amount * (t :: ts).length) blk
          (t :: ts).length (t :: ts).length 0 amount).length := by rw [shares_length]; simp
      obtain ⟨y, l, hyl⟩ := List.exists_cons_of_length_pos hl
      have hmem : (t, y) ∈ (t :: ts).zip (shares (perCollator (t :: ts).length amount)
          (amount - perCollator (t :: ts).length amount * (t :: ts).length) blk (t :: ts).length (t :: ts).length 0 amount) := by
        rw [hyl]; simp
      have hx := excl' sp.inv t y ((sp.own t y).2 (Or.inl hmem))
      have : s.cands a = none := by
        cases e : s.cands a with
        | none => rfl
        | some r => have := sp.kept.fwd a (by rw [e]; rfl); rw [hx] at this; cases this
      exact nof this h1
  · intro s' ho
    obtain ⟨r, hr, _, h1, _⟩ := bondExtraAll_ok hP.ok hi.g ho
    exact absurd h1 (nof (hi.g.excl a (by rw [hr]; rfl)))
  · intro s' ho
    have sp := join_ok hP.ok hi.g ho
    unfold staked at h
    rw [sp.wasNot, sp.notNom] at h
    have := sp.enough
    simp at h
    omega
  · intro s' ho
    obtain ⟨r, ow, _, _, hen⟩ := candBondExtra_ok hi.g ho
    have e : s.cands a = some r := ow.was
    have e2 : s.noms a = none := by
      cases e2 : s.noms a with
      | none => rfl
      | some q => have := hi.g.excl a (by rw [e2]; rfl); rw [e] at this; cases this
    unfold staked at h
    unfold St.candFree at hen
    rw [e, e2] at h
    rw [e] at hen
    simp at h hen
    omega

/-! ### Non-vacuity -/

/-- An account with 100: it nominates with 60, its balance drops to 70 (a transfer), and it may not add 20. -/
def coverHistory : List Op := [.join 1 10 0 true, .nominate 2 1 60 0 0, .setFree 2 70, .bondExtra 2 1 20]

example : staked (run smallPar (St.init 2 1 1 (fun _ => 100)) coverHistory) 2 = 60 := by decide +kernel

example : RespectsLocks smallPar (St.init 2 1 1 (fun _ => 100)) coverHistory := by
  intro pre a v post e
  match pre, e with
  | [], e => simp [coverHistory] at e
  | [_], e => simp [coverHistory] at e
  | [p, q], e =>
    simp only [coverHistory, List.cons_append, List.nil_append, List.cons.injEq] at e
    obtain ⟨rfl, rfl, e, _⟩ := e
    injection e with e1 e2
    subst e1 e2
    decide +kernel
  | [_, _, _], e => simp [coverHistory] at e
  | [_, _, _, _], e => simp [coverHistory] at e
  | _ :: _ :: _ :: _ :: _ :: _, e => simp [coverHistory] at e

end Verif.Staking
