import Verif.Props.Validators

/-!
# C55: one change at a time, and what a new session does
-/

namespace Verif.Validators

/-- **C55, one change at a time.** While a change waits for Ethereum, or is confirmed and waits to be cleared at a session, every request
to register or to remove a validator is refused. -/
theorem C55_no_request_while_change_open (minV : Nat) (s : State) (e : Entry) (he : e ∈ s.actions)
    (hst : e.status = .awaiting ∨ e.status = .confirmed) :
    (∀ a k d b1 b2 b3 b4, step minV s (.add a k d b1 b2 b3 b4) = s ∧ (addCollator s a k d b1 b2 b3 b4).2 ≠ none) ∧
      ∀ a b1 b2, step minV s (.remove a b1 b2) = s ∧ (removeValidator minV s a b1 b2).2 ≠ none := by
  have hA : hasActive s = true := by
    unfold hasActive
    refine List.any_eq_true.mpr ⟨e, he, ?_⟩
    rcases hst with h | h <;> rw [h] <;> rfl
  have fin : ∀ r : State × Option Err, r.2 ≠ none → commit s r = s := by
    rintro ⟨s', e⟩ h
    cases e with
    | none => exact (h rfl).elim
    | some e => rfl
  constructor
  · intro a k d b1 b2 b3 b4
    have : (addCollator s a k d b1 b2 b3 b4).2 ≠ none := by
      unfold addCollator
      rw [hA]
      repeat' (split; · simp)
      rename_i h _ _ _
      exact (h rfl).elim
    exact ⟨fin _ this, this⟩
  · intro a b1 b2
    have : (removeValidator minV s a b1 b2).2 ≠ none := by
      unfold removeValidator
      rw [hA]
      split; · simp
      split; · simp
      rw [if_pos rfl]; simp
    exact ⟨fin _ this, this⟩

example : ∃ e ∈ (run 2 (genesis gen3) (busy.take 1)).actions, e.status = .awaiting := by decide +kernel
example : ∃ e ∈ (run 2 (genesis gen3) (busy.take 4)).actions, e.status = .confirmed := by decide +kernel

/-- Entries a new session leaves alone: those still waiting for Ethereum, removed validators which are still in the session (or cannot
leave staking), and new validators which are not in the session yet. -/
def Untouched (act dis : List Nat) (ex : Nat → Bool) (e : Entry) : Prop :=
  e.status = .awaiting ∨
  (e.status = .actioned ∧ e.kind = .resignation ∧ (e.account ∈ act ∨ e.account ∈ dis ∨ ex e.account = false)) ∨
  (e.status = .actioned ∧ e.kind = .activation ∧ e.account ∉ act)

theorem mem_setAction_other {l : List Entry} {e e' : Entry} (hu : (l.map ekey).Nodup) (he : e ∈ l) (he' : e' ∈ l) (hne : e ≠ e')
    (st : Status) (k : Kind) : e ∈ setAction l e'.account e'.ingress st k := by
  unfold setAction
  refine List.mem_map.mpr ⟨e, he, ?_⟩
  rw [if_neg]
  intro hc
  refine hne (eq_of_ekey hu he he' ?_)
  simp at hc
  simp [ekey, hc]

theorem mem_dropAction_other {l : List Entry} {e e' : Entry} (hu : (l.map ekey).Nodup) (he : e ∈ l) (he' : e' ∈ l) (hne : e ≠ e') :
    e ∈ dropAction l e'.account e'.ingress :=
  mem_dropAction.mpr ⟨he, fun hk => hne (eq_of_ekey hu he he' hk)⟩

theorem newSession_keeps (act dis : List Nat) (ex : Nat → Bool) (e : Entry) (hx : Untouched act dis ex e) :
    ∀ (vis : List (Nat × Nat)) (s : State), (s.actions.map ekey).Nodup → e ∈ s.actions → e ∈ (newSession act dis ex vis s).actions
  | [], s, _, h => h
  | (a, i) :: rest, s, hu, h => by
    have ih := newSession_keeps act dis ex e hx rest
    unfold newSession
    cases hg : getAction s a i with
    | none => exact ih s hu h
    | some e' =>
      obtain ⟨hm, hk⟩ := getAction_some hg
      simp only [ekey, Prod.mk.injEq] at hk
      obtain ⟨rfl, rfl⟩ := hk
      dsimp only
      have set : ∀ st k, e ≠ e' → e ∈ (newSession act dis ex rest { s with actions := setAction s.actions e'.account e'.ingress st k }).actions := by
        intro st k hne
        refine ih _ ?_ (mem_setAction_other hu h hm hne _ _)
        apply nodup_mapAction _ _ hu
        intro x; split <;> rfl
      by_cases c1 : e'.status = .actioned ∧ e'.kind = .resignation
      · rw [if_pos c1]
        split
        · rename_i c
          refine set _ _ ?_
          rintro rfl
          rcases hx with hx | ⟨-, -, hx⟩ | ⟨-, hx, -⟩
          · rw [hx] at c1; cases c1.1
          · rcases hx with hx | hx | hx
            · exact c.1 (.inl hx)
            · exact c.1 (.inr hx)
            · rw [hx] at c; cases c.2
          · rw [hx] at c1; cases c1.2
        · exact ih s hu h
      rw [if_neg c1]
      by_cases c2 : e'.status = .actioned ∧ e'.kind = .activation
      · rw [if_pos c2]
        split
        · rename_i c
          have hne : e ≠ e' := by
            rintro rfl
            rcases hx with hx | ⟨-, hx, -⟩ | ⟨-, -, hx⟩
            · rw [hx] at c2; cases c2.1
            · rw [hx] at c2; cases c2.2
            · exact hx c
          split
          · exact set _ _ hne
          · exact mem_setAction_other hu h hm hne _ _
        · exact ih s hu h
      rw [if_neg c2]
      by_cases c3 : e'.status = .confirmed
      · rw [if_pos c3]
        have hne : e ≠ e' := by
          rintro rfl
          rcases hx with hx | ⟨hx, -⟩ | ⟨hx, -⟩ <;> rw [hx] at c3 <;> cases c3
        exact ih _ (nodup_dropAction _ _ hu) (mem_dropAction_other hu h hm hne)
      · rw [if_neg c3]
        exact ih s hu h

/-- **C55, sitting members stay.** In any history, a new session leaves alone: a change that waits for Ethereum; a removed validator
that is still in the session, disabled or not, or that cannot leave staking; a new validator that is not in the session yet. -/
theorem C55_session_waits_for_members (minV : Nat) (vs : List (Nat × Nat)) (h : GoodGenesis minV vs) (xs : List Step) (act dis : List Nat)
    (ex : Nat → Bool) (vis : List (Nat × Nat)) (e : Entry) (he : e ∈ (run minV (genesis vs) xs).actions) (hx : Untouched act dis ex e) :
    e ∈ (run minV (genesis vs) (xs ++ [.session act dis ex vis])).actions := by
  obtain ⟨p, hi⟩ := run_inv h xs
  rw [run_snoc]
  exact newSession_keeps act dis ex e hx vis _ hi.uniq he

theorem newSession_other (act dis : List Nat) (ex : Nat → Bool) (e : Entry) :
    ∀ (vis : List (Nat × Nat)) (s : State), ekey e ∉ vis → (s.actions.map ekey).Nodup → e ∈ s.actions →
      e ∈ (newSession act dis ex vis s).actions
  | [], s, _, _, h => h
  | (a, i) :: rest, s, hv, hu, h => by
    have ih := fun s => newSession_other act dis ex e rest s (fun hc => hv (List.mem_cons_of_mem _ hc))
    unfold newSession
    cases hg : getAction s a i with
    | none => exact ih s hu h
    | some e' =>
      obtain ⟨hm, hk⟩ := getAction_some hg
      have hne : e ≠ e' := by
        rintro rfl
        rw [hk] at hv; simp at hv
      simp only [ekey, Prod.mk.injEq] at hk
      obtain ⟨rfl, rfl⟩ := hk
      dsimp only
      have set : ∀ st k, e ∈ (newSession act dis ex rest { s with actions := setAction s.actions e'.account e'.ingress st k }).actions := by
        intro st k
        refine ih _ ?_ (mem_setAction_other hu h hm hne _ _)
        apply nodup_mapAction _ _ hu
        intro x; split <;> rfl
      split
      · split
        · exact set _ _
        · exact ih s hu h
      split
      · split
        · split
          · exact set _ _
          · exact mem_setAction_other hu h hm hne _ _
        · exact ih s hu h
      split
      · exact ih _ (nodup_dropAction _ _ hu) (mem_dropAction_other hu h hm hne)
      · exact ih s hu h

/-- The visiting order does not matter for an entry which is visited once and needs no more than its own turn: the loop reaches it
unless it stops early, which happens only at a new validator in the session without an Ethereum key. -/
theorem newSession_confirms (act dis : List Nat) (ex : Nat → Bool) (e : Entry) (hst : e.status = .actioned) (hk : e.kind = .resignation)
    (h1 : e.account ∉ act) (h2 : e.account ∉ dis) (h3 : ex e.account = true) :
    ∀ (vis : List (Nat × Nat)) (s : State), vis.Nodup → ekey e ∈ vis → (s.actions.map ekey).Nodup → e ∈ s.actions →
      (∀ a ∈ act, s.rev a ≠ none) → { e with status := .confirmed } ∈ (newSession act dis ex vis s).actions
  | [], s, _, hv, _, _, _ => by cases hv
  | (a, i) :: rest, s, hn, hv, hu, h, hrev => by
    have ih := fun s => newSession_confirms act dis ex e hst hk h1 h2 h3 rest s (List.nodup_cons.mp hn).2
    by_cases hkey : ekey e = (a, i)
    · have hg : getAction s a i = some e := by
        have := getAction_of_mem hu h
        simp only [ekey, Prod.mk.injEq] at hkey
        rw [hkey.1, hkey.2] at this
        exact this
      have hnr : ekey e ∉ rest := by rw [hkey]; exact (List.nodup_cons.mp hn).1
      simp only [ekey, Prod.mk.injEq] at hkey
      obtain ⟨rfl, rfl⟩ := hkey
      unfold newSession
      rw [hg]
      dsimp only
      rw [if_pos ⟨hst, hk⟩, if_pos ⟨by rintro (c | c); exact h1 c; exact h2 c, h3⟩]
      refine newSession_other act dis ex _ rest _ hnr ?_ ?_
      · apply nodup_mapAction _ _ hu
        intro x; split <;> rfl
      · show _ ∈ setAction _ _ _ _ _
        unfold setAction
        refine List.mem_map.mpr ⟨e, h, ?_⟩
        rw [if_pos (by simp)]
    · have hv' : ekey e ∈ rest := by
        rcases List.mem_cons.mp hv with hv | hv
        · exact (hkey hv).elim
        · exact hv
      unfold newSession
      cases hg : getAction s a i with
      | none => exact ih s hv' hu h hrev
      | some e' =>
        obtain ⟨hm, hk'⟩ := getAction_some hg
        have hne : e ≠ e' := by
          rintro rfl; exact hkey hk'
        simp only [ekey, Prod.mk.injEq] at hk'
        obtain ⟨rfl, rfl⟩ := hk'
        dsimp only
        have set : ∀ st k, { e with status := .confirmed } ∈ (newSession act dis ex rest { s with actions := setAction s.actions e'.account e'.ingress st k }).actions := by
          intro st k
          refine ih _ hv' ?_ (mem_setAction_other hu h hm hne _ _) hrev
          apply nodup_mapAction _ _ hu
          intro x; split <;> rfl
        split
        · split
          · exact set _ _
          · exact ih s hv' hu h hrev
        split
        · split
          · rename_i c
            split
            · exact set _ _
            · rename_i hr; exact (hrev _ c hr).elim
          · exact ih s hv' hu h hrev
        split
        · exact ih _ hv' (nodup_dropAction _ _ hu) (mem_dropAction_other hu h hm hne) hrev
        · exact ih s hv' hu h hrev

/-- **C55, removal completes.** In any history, a new session confirms the removal of a validator that is not in the session any more and
can leave staking, in whatever order the entries are visited, provided all members of the session have Ethereum keys. -/
theorem C55_session_completes_removal (minV : Nat) (vs : List (Nat × Nat)) (h : GoodGenesis minV vs) (xs : List Step) (act dis : List Nat)
    (ex : Nat → Bool) (vis : List (Nat × Nat)) (hn : vis.Nodup) (e : Entry) (he : e ∈ (run minV (genesis vs) xs).actions)
    (hvis : (e.account, e.ingress) ∈ vis) (hst : e.status = .actioned) (hk : e.kind = .resignation)
    (hact : e.account ∉ act) (hdis : e.account ∉ dis) (hex : ex e.account = true)
    (hrev : ∀ a ∈ act, (run minV (genesis vs) xs).rev a ≠ none) :
    { e with status := .confirmed } ∈ (run minV (genesis vs) (xs ++ [.session act dis ex vis])).actions := by
  obtain ⟨p, hi⟩ := run_inv h xs
  rw [run_snoc]
  exact newSession_confirms act dis ex e hst hk hact hdis hex vis _ hn hvis hi.uniq he hrev

/-- The removal of validator 2 after `busy`: untouched while 2 is in the session, confirmed once it is not. -/
example : ⟨2, 2, .actioned, 1, .resignation⟩ ∈ (run 2 (genesis gen3) (busy ++ [.session [1, 2, 3] [] (fun _ => true) [(2, 2)]])).actions ∧
    ⟨2, 2, .confirmed, 1, .resignation⟩ ∈ (run 2 (genesis gen3) (busy ++ [.session [1, 3] [] (fun _ => true) [(2, 2)]])).actions ∧
    (∀ a ∈ [1, 3], (run 2 (genesis gen3) busy).rev a ≠ none) := by decide +kernel

end Verif.Validators
