import Verif.Lemmas.Governed2

/-! # The settings of staking: what keeps them -/

namespace Verif.Governed

open Verif.Authority (privileged)
open Verif.Staking

/-- The three settings in the ledger. -/
def ledSettings (s : St) : Nat × Nat × Nat := (s.delay, s.minCollator, s.minTotal)

/-- The five settings of staking. -/
def stakeSettings (F : Full) : Nat × Nat × Nat × Nat × Nat := (F.totalSelected, F.length, ledSettings F.led)

theorem settings_led {F : Full} {s : St} (h : ledSettings s = ledSettings F.led) : stakeSettings { F with led := s } = stakeSettings F := by
  unfold stakeSettings; dsimp only; rw [h]

theorem sameP_settings {s s' : St} (h : SameP s s') : ledSettings s' = ledSettings s := by
  unfold ledSettings; rw [h.delay, h.minCollator, h.minTotal]

theorem removeRequest_settings (s : St) (c n : Nat) (r : Nomr) : ledSettings (removeRequest s c n r).1 = ledSettings s := by
  unfold removeRequest; split <;> rfl

theorem returnStake_settings {c : Nat} {s s' : St} {b : Bond} (h : returnStake c (some s) b = some s') : ledSettings s' = ledSettings s := by
  unfold returnStake at h
  dsimp only at h
  cases hn : s.noms b.owner with
  | none => rw [hn] at h; cases h
  | some r =>
    rw [hn] at h
    dsimp only at h
    cases hr : r.rm c with
    | none => rw [hr] at h; cases h; rfl
    | some r1 =>
      rw [hr] at h
      dsimp only at h
      have e := removeRequest_settings (s.lockNom b.owner r1.total) c b.owner r1
      split at h <;> (cases h; exact e)

theorem foldReturn_none (c : Nat) (l : List Bond) : l.foldl (returnStake c) none = none := by
  induction l with
  | nil => rfl
  | cons b l ih => exact ih

theorem foldReturn_settings {c : Nat} : ∀ {l : List Bond} {s s' : St}, l.foldl (returnStake c) (some s) = some s' → ledSettings s' = ledSettings s
  | [], _, _, h => by cases h; rfl
  | b :: l, s, s', h => by
    rw [List.foldl_cons] at h
    cases hb : returnStake c (some s) b with
    | none => rw [hb, foldReturn_none] at h; cases h
    | some t => rw [hb] at h; exact (foldReturn_settings h).trans (returnStake_settings hb)

theorem exitStaking_settings {s s' : St} {a : Nat} (h : Membership.exitStaking s a = some s') : ledSettings s' = ledSettings s := by
  unfold Membership.exitStaking at h
  split at h
  · cases h
  unfold executeLeave at h
  split at h
  · cases h
  split at h
  · cases h
  split at h
  · cases h
  split at h
  · cases h
  · rename_i h1
    have e := foldReturn_settings h1
    cases h
    exact e

theorem visitOne_settings (active : List Nat) (vm : Validators.State) (s : St) (a i : Nat) :
    ledSettings (Membership.visitOne active vm s a i).2.1 = ledSettings s := by
  unfold Membership.visitOne
  split
  · rfl
  split
  · split
    · rfl
    · split
      · rfl
      · rename_i h; exact exitStaking_settings h
  split
  · split <;> rfl
  split <;> rfl

theorem visitAll_settings (active : List Nat) : ∀ (l : List (Nat × Nat)) (vm : Validators.State) (s : St),
    ledSettings (Membership.visitAll active l vm s).2 = ledSettings s
  | [], _, _ => rfl
  | (a, i) :: l, vm, s => by
    have e := visitOne_settings active vm s a i
    unfold Membership.visitAll
    split
    · rename_i h; rw [h] at e; exact (visitAll_settings active l _ _).trans e
    · rename_i h; rw [h] at e; exact e

theorem rotate_settings (c : Membership.Chain) (visit : List (Nat × Nat)) : stakeSettings (Membership.rotate c visit).stk = stakeSettings c.stk :=
  settings_led (visitAll_settings _ visit c.vm c.stk.led)

theorem selectTop_settings {E : EPar} {F F' : Full} {e : Nat} (h : selectTop E F e = some F') : stakeSettings F' = stakeSettings F := by
  unfold selectTop at h
  dsimp only at h
  split at h
  · split at h
    · cases h; rfl
    · cases h
  · split at h
    · cases h
    · split at h
      · cases h; rfl
      · cases h

theorem startEra_settings {E : EPar} {pub : Nat → Option Nat} {F F' : Full} {now : Nat} (h : startEra E pub F now = some F') :
    stakeSettings F' = stakeSettings F := by
  unfold startEra at h
  dsimp only at h
  have hf := prepIf_frame E pub F (F.led.era + 1)
  have e1 : stakeSettings (if E.par.enabled then preparePayouts E pub F (F.led.era + 1) else F) = stakeSettings F := by
    unfold stakeSettings; rw [hf.totalSelected, hf.length, hf.led]
  cases hs : selectTop E (if E.par.enabled then preparePayouts E pub F (F.led.era + 1) else F) (F.led.era + 1) with
  | none => rw [hs] at h; cases h
  | some F2 =>
    rw [hs] at h
    cases h
    have e2 := selectTop_settings hs
    exact e2.trans e1

theorem foldPay_settings (E : EPar) (e c : Nat) : ∀ (l : List (Nat × Nat)) (F : Full), stakeSettings (l.foldl (payReward E e c) F) = stakeSettings F
  | [], _ => rfl
  | x :: l, F => by
    rw [List.foldl_cons, foldPay_settings E e c l]
    obtain ⟨f, k, p, h⟩ := payReward_eq E e c F x
    rw [h]
    rfl

theorem payOne_settings (E : EPar) (F : Full) (e total pick : Nat) : stakeSettings (payOne E F e total pick).1 = stakeSettings F := by
  unfold payOne
  split
  · rfl
  split
  · rfl
  · dsimp only
    rw [foldPay_settings]
    rfl

theorem handlePayouts_settings (E : EPar) (F : Full) (e pick : Nat) : stakeSettings (handlePayouts E F e pick) = stakeSettings F := by
  unfold handlePayouts
  split
  · rfl
  split
  · rfl
  · rename_i total _
    have e1 := payOne_settings E F (e - E.payDelay) total pick
    split
    · rename_i h; rw [h] at e1; exact e1
    · rename_i h; rw [h] at e1; exact e1

theorem initHook_settings {E : EPar} {pub : Nat → Option Nat} {F F' : Full} {now pick : Nat} (h : initHook E pub F now pick = some F') :
    stakeSettings F' = stakeSettings F := by
  unfold initHook at h
  have key : ∀ F1, (if shouldUpdate F now then startEra E pub F now else some F) = some F1 → stakeSettings F1 = stakeSettings F := by
    intro F1 h1
    split at h1
    · exact startEra_settings h1
    · cases h1; rfl
  cases hs : (if shouldUpdate F now then startEra E pub F now else some F) with
  | none => rw [hs] at h; cases h
  | some F1 =>
    rw [hs] at h
    have e := key F1 hs
    cases h
    split
    · rw [handlePayouts_settings]; exact e
    · exact e

theorem sessionHook_settings {E : EPar} {pub : Nat → Option Nat} {F F' : Full} {now : Nat} (h : sessionHook E pub F now = some F') :
    stakeSettings F' = stakeSettings F := by
  unfold sessionHook at h
  split at h
  · cases h; rfl
  split at h
  · have e := startEra_settings h
    rw [e]
    unfold stakeSettings ledSettings
    dsimp only
  · cases h; rfl

theorem block_settings {E : EPar} {c c' : Membership.Chain} {pub : Nat → Option Nat} {now author pick : Nat} {visit : List (Nat × Nat)}
    (h : Membership.block E c pub now author pick visit = some c') : stakeSettings c'.stk = stakeSettings c.stk := by
  unfold Membership.block at h
  dsimp only at h
  cases hs : sessionHook E pub (noteAuthor c.stk author) now with
  | none => rw [hs] at h; dsimp only at h; cases h
  | some F1 =>
    rw [hs] at h
    dsimp only at h
    have e1 : stakeSettings F1 = stakeSettings (noteAuthor c.stk author) := sessionHook_settings hs
    have e0 : stakeSettings (noteAuthor c.stk author) = stakeSettings c.stk := rfl
    obtain ⟨c2, h2⟩ : ∃ c2, c2 = if shouldUpdate (noteAuthor c.stk author) now || (noteAuthor c.stk author).force then
      Membership.rotate { c with stk := F1 } visit else { c with stk := F1 } := ⟨_, rfl⟩
    rw [← h2] at h
    have e2 : stakeSettings c2.stk = stakeSettings F1 := by
      rw [h2]
      split
      · exact rotate_settings _ visit
      · rfl
    cases hi : initHook E pub c2.stk now pick with
    | none => rw [hi, Option.map_none] at h; cases h
    | some F2 =>
      rw [hi, Option.map_some] at h
      injection h with h
      rw [← h]
      show stakeSettings F2 = _
      rw [initHook_settings hi, e2, e1, e0]

theorem mintAll_settings : ∀ (l : List (Nat × Nat)) (F : Full), stakeSettings (mintAll l F).1 = stakeSettings F
  | [], _ => rfl
  | x :: l, F => by
    unfold mintAll
    by_cases h0 : F.led.free x.1 = 0
    · rw [if_pos h0]
    · rw [if_neg h0]
      dsimp only
      rw [mintAll_settings l]
      rfl

theorem payoutGrowth_settings (E : EPar) (F : Full) (amount period : Nat) : stakeSettings (payoutGrowth E F amount period).1 = stakeSettings F := by
  have e := mintAll_settings (growthShares F amount period) F
  have d : ∀ (G : Full) (n : Nat), stakeSettings (dustTo E G n) = stakeSettings G := by
    intro G n; unfold dustTo; split <;> rfl
  unfold payoutGrowth
  split
  · rfl
  dsimp only
  split
  · exact e
  · dsimp only; rw [d]; exact e

theorem eStep_settings {E : EPar} (hE : E.Sane) {minV : Nat} {F : Full} (h : Core E F) (op : EOp) (hu : Membership.userCall op = true)
    (hx : ∀ l, (membership E minV).rootCall (.staking op) = some l → l ∉ privileged) : stakeSettings (eStep E F op) = stakeSettings F := by
  unfold eStep
  cases ho : eCall E F op with
  | none => rfl
  | some F' =>
  show stakeSettings F' = _
  cases op with
  | block pub now author pick => cases hu
  | setTotalSelected v => exact absurd (by decide) (hx .setTotalSelected rfl)
  | setBlocksPerEra v => exact absurd (by decide) (hx .setBlocksPerEra rfl)
  | forceEra => cases ho; rfl
  | bridgeResult tx ok =>
    cases ho
    unfold Staking.bridgeResult
    split <;> rfl
  | growthLifted a p => cases ho; exact payoutGrowth_settings E F a p
  | ledger op =>
    simp only [eCall] at ho
    split at ho
    · cases hc : call E.par F.led op with
      | none => rw [hc] at ho; cases ho
      | some s' =>
        rw [hc] at ho
        cases ho
        have hk := call_ok hE.par.ok hE.par.per.1 h.led hc
        refine settings_led ?_
        unfold ledSettings
        rcases hk.delay with e1 | ⟨d, e1, -⟩
        · rcases hk.minCollator with e2 | ⟨d, e2, -⟩
          · rcases hk.minTotal with e3 | ⟨d, e3, -⟩
            · rw [e1, e2, e3]
            · subst e3; exact absurd (by decide) (hx .stakingSetAdminSetting rfl)
          · subst e2; exact absurd (by decide) (hx .stakingSetAdminSetting rfl)
        · subst e1; exact absurd (by decide) (hx .stakingSetAdminSetting rfl)
    · cases ho

theorem stakingPart_settings {E : EPar} (hE : E.Sane) {minV : Nat} {c : Membership.Chain} (h : Membership.MInv E minV c) {tx : Nat} {s : St}
    (hs : Membership.stakingPart E c tx = some s) : ledSettings s = ledSettings c.stk.led := by
  have key : ∀ op, call E.par c.stk.led op = some s → (∀ d, op ≠ .setDelay d) → (∀ d, op ≠ .setMinCollator d) → (∀ d, op ≠ .setMinTotal d) →
      ledSettings s = ledSettings c.stk.led := by
    intro op hc n1 n2 n3
    have hk := call_ok hE.par.ok hE.par.per.1 h.core.led hc
    unfold ledSettings
    rw [hk.delay.resolve_right (fun ⟨d, e, _⟩ => n1 d e), hk.minCollator.resolve_right (fun ⟨d, e, _⟩ => n2 d e),
      hk.minTotal.resolve_right (fun ⟨d, e, _⟩ => n3 d e)]
  unfold Membership.stakingPart at hs
  split at hs
  · cases hs; rfl
  split at hs
  · cases hs; rfl
  split at hs
  · exact key (.join _ _ _ _) hs (by simp) (by simp) (by simp)
  split at hs
  · exact key (.scheduleLeave _ _) hs (by simp) (by simp) (by simp)
  · cases hs; rfl

theorem membership_settings {E : EPar} (hE : E.Sane) {minV : Nat} {c : Membership.Chain} (h : Membership.MInv E minV c) (x : Membership.Step)
    (hx : ∀ l, (membership E minV).rootCall x = some l → l ∉ privileged) :
    stakeSettings (Membership.step E minV c x).stk = stakeSettings c.stk := by
  cases x with
  | block pub now author pick visit =>
    show stakeSettings ((Membership.block E c pub now author pick visit).getD c).stk = _
    cases hb : Membership.block E c pub now author pick visit with
    | none => rfl
    | some c' => exact block_settings hb
  | staking op =>
    show stakeSettings (if Membership.userCall op then { c with stk := eStep E c.stk op } else c).stk = _
    by_cases hu : Membership.userCall op = true
    · rw [if_pos hu]; exact eStep_settings hE h.core op hu hx
    · rw [if_neg hu]
  | addCollator a k d ko bo => rfl
  | removeValidator a ko bo => rfl
  | rotateEthKey a old new => rfl
  | otherPublish => rfl
  | bridgeResult tx mine ok =>
    show stakeSettings (Membership.bridgeResult E c tx mine ok).stk = _
    unfold Membership.bridgeResult
    dsimp only
    cases hp : (if mine && ok then Membership.stakingPart E c tx else some c.stk.led) with
    | none =>
      split
      · rfl
      · rfl
    | some s =>
      have e : ledSettings s = ledSettings c.stk.led := by
        split at hp
        · exact stakingPart_settings hE h hp
        · cases hp; rfl
      split
      · exact settings_led e
      · rfl
  | bridgeDropped tx mine => rfl
  | setKeys b k =>
    show stakeSettings (Membership.setKeys c b k).stk = _
    unfold Membership.setKeys
    split <;> rfl
  | purgeKeys b =>
    show stakeSettings (Membership.purgeKeys c b).stk = _
    unfold Membership.purgeKeys
    split <;> rfl

end Verif.Governed
