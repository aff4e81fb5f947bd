import Verif.Model.Offence
import Mathlib.Data.List.Induction

/-!
# C68: an offender is punished at most once per registration
-/

namespace Verif.Offence

/-! ## Specification, on the observations only -/

/-- The observations after the last registration of `v`. -/
def sinceRegistration (v : Acct) (log : List Obs) : List Obs :=
  (log.reverse.takeWhile (fun o => o != .registered v)).reverse

/-- The last configured value of the slashing flag; off when never configured. -/
def lastConfigured (log : List Obs) : Bool :=
  log.foldl (fun b o => match o with | .configured e => e | _ => b) false

/-- `o` is a report of `v`. -/
def isReport (v : Acct) (o : Obs) : Bool := o == .reported v
/-- `o` is a slash of `v`. -/
def isSlash (v : Acct) (o : Obs) : Bool := o == .slashed v true || o == .slashed v false
/-- `o` is a successful slash of `v`. -/
def isSlashOk (v : Acct) (o : Obs) : Bool := o == .slashed v true

theorem lastConfigured_append (l : List Obs) (o : Obs) :
    lastConfigured (l ++ [o]) = match o with | .configured e => e | _ => lastConfigured l := by
  simp only [lastConfigured, List.foldl_append, List.foldl_cons, List.foldl_nil]

theorem sinceRegistration_append (v : Acct) (l : List Obs) (o : Obs) (h : o ≠ .registered v) :
    sinceRegistration v (l ++ [o]) = sinceRegistration v l ++ [o] := by
  simp [sinceRegistration, h]

theorem sinceRegistration_registered (v : Acct) (l : List Obs) :
    sinceRegistration v (l ++ [.registered v]) = [] := by
  simp [sinceRegistration]

/-! ## Invariant -/

/-- The invariant. -/
structure Inv (s : State) : Prop where
  flag : s.slashing = lastConfigured s.log
  none_ : ∀ v, s.reported v = none → (sinceRegistration v s.log).countP (isReport v) = 0 ∧
    (sinceRegistration v s.log).countP (isSlash v) = 0
  some_ : ∀ v b, s.reported v = some b → (sinceRegistration v s.log).countP (isReport v) = 1 ∧
    (sinceRegistration v s.log).countP (isSlash v) ≤ 1 ∧ (b = true ↔ 1 ≤ (sinceRegistration v s.log).countP (isSlashOk v))
  slashes : ∀ pre post v ok, s.log = pre ++ .slashed v ok :: post → lastConfigured pre = true

theorem slashes_snoc {l : List Obs} {o : Obs} (h : ∀ pre post v ok, l = pre ++ .slashed v ok :: post → lastConfigured pre = true)
    (ho : ∀ v ok, o = .slashed v ok → lastConfigured l = true) :
    ∀ pre post v ok, l ++ [o] = pre ++ .slashed v ok :: post → lastConfigured pre = true := by
  intro pre post v ok he
  rcases List.eq_nil_or_concat post with rfl | ⟨post', x, rfl⟩
  · rw [show pre ++ [Obs.slashed v ok] = pre ++ [Obs.slashed v ok] from rfl] at he
    obtain ⟨rfl, h2⟩ := List.append_inj' he rfl
    simp only [List.cons.injEq, and_true] at h2
    exact ho v ok h2
  · have : l ++ [o] = (pre ++ .slashed v ok :: post') ++ [x] := by simpa using he
    obtain ⟨h1, _⟩ := List.append_inj' this rfl
    exact h pre post' v ok h1

theorem countP_snoc {α : Type} (p : α → Bool) (l : List α) (x : α) :
    (l ++ [x]).countP p = l.countP p + if p x then 1 else 0 := by
  simp [List.countP_append, List.countP_cons]

theorem slashOk_le (v : Acct) (l : List Obs) : l.countP (isSlashOk v) ≤ l.countP (isSlash v) := by
  apply List.countP_mono_left
  intro x _ hx
  simp only [isSlashOk, beq_iff_eq] at hx
  simp [isSlash, hx]

theorem punish_inv (v : Acct) (b : Bool) (s : State) (h : Inv s) (hv : s.reported v = none) : Inv (punish b v s) := by
  unfold punish
  obtain ⟨h1, h2⟩ := h.none_ v hv
  have h3 : (sinceRegistration v s.log).countP (isSlashOk v) = 0 := by
    have := slashOk_le v (sinceRegistration v s.log); omega
  by_cases hs : s.slashing = true
  · rw [if_pos hs]
    have e : s.log ++ [Obs.reported v, .slashed v b] = (s.log ++ [.reported v]) ++ [.slashed v b] := by simp
    have es : ∀ w, sinceRegistration w (s.log ++ [Obs.reported v, .slashed v b]) =
        (sinceRegistration w s.log ++ [.reported v]) ++ [.slashed v b] := by
      intro w
      rw [e, sinceRegistration_append _ _ _ (by simp), sinceRegistration_append _ _ _ (by simp)]
    constructor
    · simp only; rw [e, lastConfigured_append, lastConfigured_append]; exact h.flag
    · intro w hw
      simp only [upd] at hw
      by_cases hwv : w = v
      · simp [hwv] at hw
      · rw [if_neg hwv] at hw
        simp only; rw [es]
        obtain ⟨g1, g2⟩ := h.none_ w hw
        simp only [countP_snoc, g1, g2]
        simp [isReport, isSlash, Ne.symm hwv]
    · intro w c hw
      simp only [upd] at hw
      simp only; rw [es]
      by_cases hwv : w = v
      · subst hwv
        simp only [↓reduceIte, Option.some.injEq] at hw
        subst hw
        simp only [countP_snoc, h1, h2, h3]
        cases b <;> simp [isReport, isSlash, isSlashOk]
      · rw [if_neg hwv] at hw
        obtain ⟨g1, g2, g3⟩ := h.some_ w c hw
        simp only [countP_snoc, g1]
        simp [isReport, isSlash, isSlashOk, Ne.symm hwv]
        exact ⟨g2, by rw [g3]; exact Nat.one_le_iff_ne_zero.trans (by simp [Nat.pos_iff_ne_zero, List.countP_eq_zero, isSlashOk])⟩
    · simp only; rw [e]
      apply slashes_snoc (slashes_snoc h.slashes (by simp))
      intro w ok _
      rw [lastConfigured_append, ← h.flag]; exact hs
  · rw [if_neg hs]
    constructor
    · simp only; rw [lastConfigured_append]; exact h.flag
    · intro w hw
      simp only [upd] at hw
      by_cases hwv : w = v
      · simp [hwv] at hw
      · rw [if_neg hwv] at hw
        simp only; rw [sinceRegistration_append _ _ _ (by simp)]
        obtain ⟨g1, g2⟩ := h.none_ w hw
        simp only [countP_snoc, g1, g2]
        simp [isReport, isSlash, Ne.symm hwv]
    · intro w c hw
      simp only [upd] at hw
      simp only; rw [sinceRegistration_append _ _ _ (by simp)]
      by_cases hwv : w = v
      · subst hwv
        simp only [↓reduceIte, Option.some.injEq] at hw
        subst hw
        simp only [countP_snoc, h1, h2, h3]
        simp [isReport, isSlash, isSlashOk]
      · rw [if_neg hwv] at hw
        obtain ⟨g1, g2, g3⟩ := h.some_ w c hw
        simp only [countP_snoc, g1]
        simp [isReport, isSlash, isSlashOk, Ne.symm hwv]
        exact ⟨g2, by rw [g3]; exact Nat.one_le_iff_ne_zero.trans (by simp [Nat.pos_iff_ne_zero, List.countP_eq_zero, isSlashOk])⟩
    · simp only
      exact slashes_snoc h.slashes (by simp)

theorem onOffence_inv (os : List (Acct × Bool)) : ∀ (s : State), Inv s → Inv (onOffence os s) := by
  induction os with
  | nil => intro s h; exact h
  | cons o os ih =>
    intro s h
    simp only [onOffence, List.foldl_cons]
    apply ih
    unfold handleOne
    by_cases ho : (s.reported o.1).isSome = true
    · rw [if_pos ho]; exact h
    · rw [if_neg ho]; exact punish_inv _ _ _ h (by simpa using ho)

theorem step_inv (s : State) (x : Step) (h : Inv s) : Inv (step s x) := by
  cases x with
  | offence os => exact onOffence_inv os s h
  | configure r e =>
    simp only [step, configureSlashing]
    by_cases hr : r = true
    · rw [if_pos hr]
      refine ⟨by simp only; rw [lastConfigured_append], fun w hw => ?_, fun w c hw => ?_, ?_⟩
      · simp only at hw ⊢
        rw [sinceRegistration_append _ _ _ (by simp)]
        obtain ⟨g1, g2⟩ := h.none_ w hw
        simp [countP_snoc, g1, g2, isReport, isSlash]
      · simp only at hw ⊢
        rw [sinceRegistration_append _ _ _ (by simp)]
        obtain ⟨g1, g2, g3⟩ := h.some_ w c hw
        simp only [countP_snoc, g1]
        rw [g3]; simp [isReport, isSlash, isSlashOk, g2]
      · exact slashes_snoc h.slashes (by simp)
    · rw [if_neg hr]; exact h
  | register v =>
    simp only [step, onRegistration]
    refine ⟨by simp only; rw [lastConfigured_append]; exact h.flag, fun w hw => ?_, fun w c hw => ?_, ?_⟩
    · simp only [upd] at hw ⊢
      by_cases hwv : w = v
      · subst hwv; rw [sinceRegistration_registered]; simp
      · rw [if_neg hwv] at hw
        rw [sinceRegistration_append _ _ _ (by simp [Ne.symm hwv])]
        obtain ⟨g1, g2⟩ := h.none_ w hw
        simp [countP_snoc, g1, g2, isReport, isSlash]
    · simp only [upd] at hw ⊢
      by_cases hwv : w = v
      · simp [hwv] at hw
      · rw [if_neg hwv] at hw
        rw [sinceRegistration_append _ _ _ (by simp [Ne.symm hwv])]
        obtain ⟨g1, g2, g3⟩ := h.some_ w c hw
        simp only [countP_snoc, g1]
        rw [g3]; simp [isReport, isSlash, isSlashOk, g2]
    · exact slashes_snoc h.slashes (by simp)

theorem init_inv : Inv init := by
  refine ⟨rfl, fun v _ => by simp [init, sinceRegistration], fun v b h => by simp [init] at h, ?_⟩
  intro pre post v ok h
  simp [init] at h

theorem run_snoc (steps : List Step) (x : Step) : run (steps ++ [x]) = step (run steps) x := by
  simp [run, List.foldl_append]

theorem run_inv (steps : List Step) : Inv (run steps) := by
  induction steps using List.reverseRecOn with
  | nil => exact init_inv
  | append_singleton l a ih => rw [run_snoc]; exact step_inv _ _ ih

/-! ## Every prefix of the observations is covered

The log of a history has prefixes that end inside a call (one report handles several offenders), so the bound is proved
for every prefix of the log. -/

theorem sinceRegistration_append_all (v : Acct) (l m : List Obs) (h : Obs.registered v ∉ m) :
    sinceRegistration v (l ++ m) = sinceRegistration v l ++ m := by
  induction m using List.reverseRecOn with
  | nil => simp
  | append_singleton m a ih =>
    rw [← List.append_assoc, sinceRegistration_append, ih, List.append_assoc]
    · intro hc; exact h (by simp [hc])
    · intro hc; exact h (by simp [hc])

/-- A segment of the log in which `v` does not register carries at most one report and at most one slash of `v`, whatever
prefix of the log it is in: proved by strengthening the invariant to all segments. -/
def SegInv (log : List Obs) : Prop := ∀ v a seg b, log = a ++ seg ++ b → Obs.registered v ∉ seg →
  seg.countP (isReport v) ≤ 1 ∧ seg.countP (isSlash v) ≤ 1

theorem SegInv.snoc {log : List Obs} (h : SegInv log) (o : Obs)
    (ho : ∀ v, o ≠ .registered v → (sinceRegistration v log ++ [o]).countP (isReport v) ≤ 1 ∧
      (sinceRegistration v log ++ [o]).countP (isSlash v) ≤ 1) : SegInv (log ++ [o]) := by
  intro v a seg b he hr
  rcases List.eq_nil_or_concat b with rfl | ⟨b', x, rfl⟩
  · rcases List.eq_nil_or_concat seg with rfl | ⟨seg', y, rfl⟩
    · simp
    · have e : log ++ [o] = (a ++ seg') ++ [y] := by simpa using he
      obtain ⟨h1, h2⟩ := List.append_inj' e rfl
      simp only [List.cons.injEq, and_true] at h2
      subst h2
      simp only [List.concat_eq_append, List.mem_append, List.mem_cons, List.not_mem_nil, or_false, not_or] at hr
      obtain ⟨g1, g2⟩ := ho v (Ne.symm hr.2)
      rw [h1, sinceRegistration_append_all v a seg' hr.1] at g1 g2
      simp only [List.append_assoc, List.countP_append, List.concat_eq_append] at g1 g2 ⊢
      omega
  · have e : log ++ [o] = (a ++ seg ++ b') ++ [x] := by simpa using he
    obtain ⟨h1, _⟩ := List.append_inj' e rfl
    exact h v a seg b' h1 hr

theorem punish_seg (v : Acct) (b : Bool) (s : State) (h : Inv s) (hv : s.reported v = none) (hs : SegInv s.log) :
    SegInv (punish b v s).log := by
  have key : ∀ w, (sinceRegistration w s.log ++ [Obs.reported v]).countP (isReport w) ≤ 1 ∧
      (sinceRegistration w s.log ++ [Obs.reported v]).countP (isSlash w) ≤ 1 ∧
      (sinceRegistration w s.log ++ [Obs.reported v] ++ [Obs.slashed v b]).countP (isReport w) ≤ 1 ∧
      (sinceRegistration w s.log ++ [Obs.reported v] ++ [Obs.slashed v b]).countP (isSlash w) ≤ 1 := by
    intro w
    by_cases hwv : w = v
    · subst hwv
      obtain ⟨h1, h2⟩ := h.none_ w hv
      cases b <;> simp [countP_snoc, h1, h2, isReport, isSlash]
    · cases hw : s.reported w with
      | none =>
        obtain ⟨h1, h2⟩ := h.none_ w hw
        simp [countP_snoc, h1, h2, isReport, isSlash, Ne.symm hwv]
      | some c =>
        obtain ⟨h1, h2, _⟩ := h.some_ w c hw
        simp only [countP_snoc, h1]
        simp [isReport, isSlash, Ne.symm hwv, h2]
  have l1 : SegInv (s.log ++ [.reported v]) := hs.snoc _ (fun w _ => ⟨(key w).1, (key w).2.1⟩)
  unfold punish
  by_cases hsl : s.slashing = true
  · rw [if_pos hsl]
    simp only
    have e : s.log ++ [Obs.reported v, .slashed v b] = (s.log ++ [.reported v]) ++ [.slashed v b] := by simp
    rw [e]
    refine l1.snoc _ (fun w _ => ?_)
    rw [sinceRegistration_append _ _ _ (by simp)]
    exact ⟨(key w).2.2.1, (key w).2.2.2⟩
  · rw [if_neg hsl]; exact l1

theorem onOffence_seg (os : List (Acct × Bool)) : ∀ (s : State), Inv s → SegInv s.log → SegInv (onOffence os s).log := by
  induction os with
  | nil => intro s _ h; exact h
  | cons o os ih =>
    intro s h hs
    simp only [onOffence, List.foldl_cons]
    have hi : Inv (handleOne s o) := onOffence_inv [o] s h
    apply ih _ hi
    unfold handleOne
    by_cases ho : (s.reported o.1).isSome = true
    · rw [if_pos ho]; exact hs
    · rw [if_neg ho]; exact punish_seg _ _ _ h (by simpa using ho) hs

theorem run_seg (steps : List Step) : SegInv (run steps).log := by
  induction steps using List.reverseRecOn with
  | nil =>
    intro v a seg b he _
    simp only [run, init, List.foldl_nil, List.append_assoc] at he
    have : seg = [] := by
      have := congrArg List.length he; simp at this; exact List.eq_nil_of_length_eq_zero (by omega)
    simp [this]
  | append_singleton l x ih =>
    rw [run_snoc]
    have hi := run_inv l
    have other : ∀ o : Obs, (∀ w, isReport w o = false) → (∀ w, isSlash w o = false) → SegInv ((run l).log ++ [o]) := by
      intro o h1 h2
      refine ih.snoc o (fun w _ => ?_)
      simp only [countP_snoc, h1, h2]
      cases hw : (run l).reported w with
      | none => obtain ⟨g1, g2⟩ := hi.none_ w hw; simp [g1, g2]
      | some c => obtain ⟨g1, g2, _⟩ := hi.some_ w c hw; simp [g1, g2]
    cases x with
    | offence os => exact onOffence_seg os _ hi ih
    | configure r e =>
      simp only [step, configureSlashing]
      by_cases hr : r = true
      · rw [if_pos hr]; exact other _ (by simp [isReport]) (by simp [isSlash])
      · rw [if_neg hr]; exact ih
    | register v => exact other _ (by simp [isReport]) (by simp [isSlash])

/-! ## The property -/

/-- C68, at most once: in every history, any stretch of observations in which `v` does not register again contains at most
one report and at most one slash (successful or not) of `v`, also within one report that names `v` several times. -/
theorem C68_punished_at_most_once (steps : List Step) (v : Acct) (before segment after : List Obs)
    (hlog : (run steps).log = before ++ segment ++ after) (hreg : Obs.registered v ∉ segment) :
    segment.countP (isReport v) ≤ 1 ∧ segment.countP (isSlash v) ≤ 1 :=
  run_seg steps v before segment after hlog hreg

/-- C68, only while enabled: every slash happens while the last configured value of the flag is "enabled"; the flag is
off until configured. -/
theorem C68_slash_only_when_enabled (steps : List Step) (before after : List Obs) (v : Acct) (ok : Bool)
    (hlog : (run steps).log = before ++ .slashed v ok :: after) : lastConfigured before = true :=
  (run_inv steps).slashes before after v ok hlog

theorem handle_reported_mono (os : List (Acct × Bool)) : ∀ (s : State) (v : Acct), (s.reported v).isSome →
    ((onOffence os s).reported v).isSome := by
  induction os with
  | nil => intro s v h; exact h
  | cons o os ih =>
    intro s v h
    simp only [onOffence, List.foldl_cons]
    apply ih
    unfold handleOne
    by_cases ho : (s.reported o.1).isSome = true
    · rw [if_pos ho]; exact h
    · rw [if_neg ho]
      unfold punish
      by_cases hv : v = o.1
      · split <;> simp [upd, hv]
      · split <;> simp [upd, hv, h]

theorem handle_all (os : List (Acct × Bool)) : ∀ (s : State) (v : Acct) (b : Bool), (v, b) ∈ os →
    ((onOffence os s).reported v).isSome := by
  induction os with
  | nil => intro s v b h; simp at h
  | cons o os ih =>
    intro s v b h
    simp only [onOffence, List.foldl_cons]
    rcases List.mem_cons.mp h with rfl | h
    · apply handle_reported_mono
      unfold handleOne
      by_cases ho : (s.reported v).isSome = true
      · rw [if_pos ho]; exact ho
      · rw [if_neg ho]; unfold punish; split <;> simp [upd]
    · exact ih _ v b h

/-- C68, exactly once: whoever is named in an offence report has, afterwards, been reported exactly once since its last
registration. -/
theorem C68_named_offender_is_reported (steps : List Step) (os : List (Acct × Bool)) (v : Acct) (b : Bool)
    (hv : (v, b) ∈ os) :
    (sinceRegistration v (run (steps ++ [.offence os])).log).countP (isReport v) = 1 := by
  have h := handle_all os (run steps) v b hv
  rw [run_snoc]
  have hi := step_inv _ (.offence os) (run_inv steps)
  simp only [step] at hi ⊢
  obtain ⟨c, hc⟩ := Option.isSome_iff_exists.mp h
  exact (hi.some_ v c hc).1

/-- C68, the stored flag: an offender is recorded as punished exactly if a slash of it succeeded since its last
registration. -/
theorem C68_recorded_outcome (steps : List Step) (v : Acct) :
    (run steps).reported v = some true ↔ (sinceRegistration v (run steps).log).countP (isSlashOk v) = 1 := by
  have hi := run_inv steps
  have hle := slashOk_le v (sinceRegistration v (run steps).log)
  cases h : (run steps).reported v with
  | none => obtain ⟨h1, h2⟩ := hi.none_ v h; constructor
            · intro h; cases h
            · intro h; omega
  | some b =>
    obtain ⟨h1, h2, h3⟩ := hi.some_ v b h
    simp only [Option.some.injEq]
    rw [h3]; omega

/-! ## Non-vacuity -/

/-- Two validators. -/
def exV : Acct := Vector.replicate 32 1
def exW : Acct := Vector.replicate 32 2

/-- Reported twice in one report and again later, re-registered, reported again. -/
def exHist : List Step :=
  [.configure true true, .offence [(exV, true), (exV, true), (exW, false)], .offence [(exV, true)], .register exV,
   .configure false false, .offence [(exV, true)]]

example : (run exHist).log = [.configured true, .reported exV, .slashed exV true, .reported exW, .slashed exW false,
    .registered exV, .reported exV, .slashed exV true] := by decide +kernel

example : ((run exHist).log.countP (isSlash exV)) = 2 := by decide +kernel

/-- O1: an offender reported while slashing is disabled is not slashed by later reports either, until it registers again. -/
theorem C68_reported_while_disabled_is_never_slashed :
    (run [.offence [(exV, true)], .configure true true, .offence [(exV, true)]]).log =
      [.reported exV, .configured true] := by decide +kernel

end Verif.Offence
