import Verif.Props.BridgeOffence
import Verif.Props.BridgeOffenceEvents
import Verif.Props.Offence

/-!
# Properties C107 and C108: from the bridge's reports to punishment

Histories of the two halves of the bridge, of sessions and of the offence handler together (`Chain`).
-/

namespace Verif.BridgeOffence

open Verif (Addr Hash)
open Verif.EventsClient (Log)
open Verif.Parsing (EventData)
open Verif.Discovery (HonestHistory FewDishonest AdditionalInTime)

variable {W V : Type} (env : BridgeTx.Env W) (handler : V → EthBridge.EthEvent → V × Bool) (acct : Nat → Acct)

/-! ### Specification -/

/-- The reports filed by a step. -/
def reportsOf (c : Chain W V) : ChainStep W V → List Report
  | .tx _ op => (stepTx env c.tx op).2
  | .ev _ op => (stepEv handler c.ev op).2
  | _ => []

/-- During `steps`, the bridge filed in session `i` a report naming `x`. -/
def Named (c0 : Chain W V) (steps : List (ChainStep W V)) (i x : Nat) : Prop :=
  ∃ pre op post r, steps = pre ++ op :: post ∧ (Chain.run env handler acct c0 pre).session = i ∧
    r ∈ reportsOf env handler (Chain.run env handler acct c0 pre) op ∧ x ∈ r.who

/-- The step is a call of the bridge. -/
def IsBridge : ChainStep W V → Prop
  | .tx .. => True
  | .ev .. => True
  | _ => False

/-- The calls of the outgoing half of the bridge. -/
def txOps (steps : List (ChainStep W V)) : List (BridgeTx.Step W) := steps.filterMap fun | .tx _ op => some op | _ => none

/-- The calls of the incoming half of the bridge. -/
def evOps (steps : List (ChainStep W V)) : List (EthBridge.Step V) := steps.filterMap fun | .ev _ op => some op | _ => none

/-! ### Filing reports -/

theorem run_snoc (c : Chain W V) (steps : List (ChainStep W V)) (op : ChainStep W V) :
    Chain.run env handler acct c (steps ++ [op]) = Chain.step env handler acct (Chain.run env handler acct c steps) op := by
  simp [Chain.run, List.foldl_append]

theorem onOffence_log (os : List (Acct × Bool)) : ∀ s : Offence.State, ∃ new, (Offence.onOffence os s).log = s.log ++ new ∧
    ∀ v, (Offence.Obs.reported v ∈ new → v ∈ os.map Prod.fst) ∧ ∀ b, Offence.Obs.slashed v b ∈ new → v ∈ os.map Prod.fst := by
  induction os with
  | nil => intro s; exact ⟨[], by simp [Offence.onOffence], by simp⟩
  | cons o os ih =>
    intro s
    obtain ⟨new, h1, h2⟩ := ih (Offence.handleOne s o)
    have hone : ∃ n1, (Offence.handleOne s o).log = s.log ++ n1 ∧
        ∀ v, (Offence.Obs.reported v ∈ n1 → v = o.1) ∧ ∀ b, Offence.Obs.slashed v b ∈ n1 → v = o.1 := by
      unfold Offence.handleOne
      by_cases h : (s.reported o.1).isSome = true
      · rw [if_pos h]; exact ⟨[], by simp, by simp⟩
      · rw [if_neg h]
        unfold Offence.punish
        by_cases hs : s.slashing = true
        · rw [if_pos hs]; exact ⟨_, rfl, by simp +contextual⟩
        · rw [if_neg hs]; exact ⟨_, rfl, by simp⟩
    obtain ⟨n1, h3, h4⟩ := hone
    refine ⟨n1 ++ new, ?_, ?_⟩
    · have : Offence.onOffence (o :: os) s = Offence.onOffence os (Offence.handleOne s o) := rfl
      rw [this, h1, h3, List.append_assoc]
    · intro v
      refine ⟨fun h => ?_, fun b h => ?_⟩
      · rcases List.mem_append.1 h with h | h
        · simp [(h4 v).1 h]
        · simp only [List.map_cons, List.mem_cons]; exact .inr ((h2 v).1 h)
      · rcases List.mem_append.1 h with h | h
        · simp [(h4 v).2 b h]
        · simp only [List.map_cons, List.mem_cons]; exact .inr ((h2 v).2 b h)

variable {acct}

/-- What filing reports does. -/
structure Filed (acct : Nat → Acct) (c c' : Chain W V) (rs : List Report) : Prop where
  tx : c'.tx = c.tx
  ev : c'.ev = c.ev
  session : c'.session = c.session
  grows : ∀ i x, x ∈ c.known i → x ∈ c'.known i
  known : ∀ i x, x ∈ c'.known i → x ∈ c.known i ∨ (i = c.session ∧ ∃ r ∈ rs, x ∈ r.who)
  all : ∀ r ∈ rs, ∀ x ∈ r.who, x ∈ c'.known c.session
  log : ∃ new, c'.handler.log = c.handler.log ++ new ∧ ∀ v, (Offence.Obs.reported v ∈ new → ∃ x ∈ c'.known c.session, v = acct x) ∧
    ∀ b, Offence.Obs.slashed v b ∈ new → ∃ x ∈ c'.known c.session, v = acct x
  done : ∀ x ∈ c'.known c.session, x ∉ c.known c.session → (c'.handler.reported (acct x)).isSome = true
  mono : ∀ v, (c.handler.reported v).isSome = true → (c'.handler.reported v).isSome = true
  history : ∃ os : List Offence.Step, c'.handler = os.foldl Offence.step c.handler

theorem Filed.refl (c : Chain W V) : Filed acct c c [] :=
  ⟨rfl, rfl, rfl, fun _ _ h => h, fun _ _ h => .inl h, by simp, ⟨[], by simp, by simp⟩, fun x h h' => absurd h h', fun _ h => h, ⟨[], rfl⟩⟩

theorem Filed.append {c1 c2 c3 : Chain W V} {a b : List Report} (h : Filed acct c1 c2 a) (g : Filed acct c2 c3 b) :
    Filed acct c1 c3 (a ++ b) := by
  refine ⟨g.tx.trans h.tx, g.ev.trans h.ev, g.session.trans h.session, fun i x m => g.grows i x (h.grows i x m), ?_, ?_, ?_, ?_, ?_, ?_⟩
  · intro i x hx
    rcases g.known i x hx with k | ⟨k1, r, k2, k3⟩
    · rcases h.known i x k with k | ⟨k1, r, k2, k3⟩
      · exact .inl k
      · exact .inr ⟨k1, r, by simp [k2], k3⟩
    · exact .inr ⟨by rw [k1, h.session], r, by simp [k2], k3⟩
  · intro r hr x hx
    rcases List.mem_append.1 hr with hr | hr
    · exact g.grows _ _ (h.all r hr x hx)
    · rw [← h.session]; exact g.all r hr x hx
  · obtain ⟨n1, l1, p1⟩ := h.log
    obtain ⟨n2, l2, p2⟩ := g.log
    rw [h.session] at p2
    refine ⟨n1 ++ n2, by rw [l2, l1, List.append_assoc], fun v => ⟨fun m => ?_, fun b m => ?_⟩⟩
    · rcases List.mem_append.1 m with m | m
      · obtain ⟨x, e1, e2⟩ := (p1 v).1 m; exact ⟨x, g.grows _ _ e1, e2⟩
      · exact (p2 v).1 m
    · rcases List.mem_append.1 m with m | m
      · obtain ⟨x, e1, e2⟩ := (p1 v).2 b m; exact ⟨x, g.grows _ _ e1, e2⟩
      · exact (p2 v).2 b m
  · intro x hx hnew
    by_cases hm : x ∈ c2.known c1.session
    · exact g.mono _ (h.done x hm hnew)
    · rw [← h.session] at hx hm
      exact g.done x hx hm
  · intro v hv; exact g.mono v (h.mono v hv)
  · obtain ⟨o1, e1⟩ := h.history
    obtain ⟨o2, e2⟩ := g.history
    exact ⟨o1 ++ o2, by rw [e2, e1, List.foldl_append]⟩

theorem fileReport_filed (slash : Nat → Bool) (c : Chain W V) (r : Report) : Filed acct c (fileReport acct slash c r) [r] := by
  unfold fileReport
  by_cases h1 : r.who = []
  · rw [if_pos h1]
    refine ⟨rfl, rfl, rfl, fun _ _ h => h, fun _ _ h => .inl h, ?_, ⟨[], by simp, by simp⟩, fun x h h' => absurd h h', fun _ h => h, ⟨[], rfl⟩⟩
    intro r' hr x hx
    simp only [List.mem_singleton] at hr
    subst hr
    rw [h1] at hx; simp at hx
  rw [if_neg h1]
  by_cases h2 : (r.who.all fun x => (c.known c.session).contains x) = true
  · rw [if_pos h2]
    refine ⟨rfl, rfl, rfl, fun _ _ h => h, fun _ _ h => .inl h, ?_, ⟨[], by simp, by simp⟩, fun x h h' => absurd h h', fun _ h => h, ⟨[], rfl⟩⟩
    intro r' hr x hx
    simp only [List.mem_singleton] at hr
    subst hr
    have := List.all_eq_true.1 h2 x hx
    simpa using this
  rw [if_neg h2]
  dsimp only
  have hmem : ∀ x, x ∈ c.known c.session ++ (r.who.filter fun x => !(c.known c.session).contains x) ↔
      x ∈ c.known c.session ∨ x ∈ r.who := by
    intro x
    rw [List.mem_append, List.mem_filter]
    by_cases h : x ∈ c.known c.session
    · simp [h]
    · simp [h]
  refine ⟨rfl, rfl, rfl, ?_, ?_, ?_, ?_, ?_, ?_, ?_⟩
  · intro i x hx
    dsimp only
    rw [upd_apply]
    by_cases hi : i = c.session
    · rw [if_pos hi, hmem]; subst hi; exact .inl hx
    · rw [if_neg hi]; exact hx
  · intro i x hx
    dsimp only at hx
    rw [upd_apply] at hx
    by_cases hi : i = c.session
    · rw [if_pos hi, hmem] at hx
      subst hi
      rcases hx with h | h
      · exact .inl h
      · exact .inr ⟨rfl, r, by simp, h⟩
    · rw [if_neg hi] at hx; exact .inl hx
  · intro r' hr x hx
    simp only [List.mem_singleton] at hr
    subst hr
    dsimp only
    rw [upd_same, hmem]
    exact .inr hx
  · dsimp only
    obtain ⟨new, e1, e2⟩ := onOffence_log
      ((c.known c.session ++ (r.who.filter fun x => !(c.known c.session).contains x)).map fun x => (acct x, slash x)) c.handler
    refine ⟨new, e1, fun v => ⟨fun m => ?_, fun b m => ?_⟩⟩
    · have := (e2 v).1 m
      rw [List.map_map] at this
      obtain ⟨x, h1, h2⟩ := List.mem_map.1 this
      exact ⟨x, by rw [upd_same]; exact h1, h2.symm⟩
    · have := (e2 v).2 b m
      rw [List.map_map] at this
      obtain ⟨x, h1, h2⟩ := List.mem_map.1 this
      exact ⟨x, by rw [upd_same]; exact h1, h2.symm⟩
  · intro x hx _
    dsimp only at hx ⊢
    rw [upd_same] at hx
    exact Offence.handle_all _ _ (acct x) (slash x) (List.mem_map.2 ⟨x, hx, rfl⟩)
  · intro v hv
    exact Offence.handle_reported_mono _ _ v hv
  · exact ⟨[.offence _], rfl⟩

theorem fileReports_filed (slash : Nat → Bool) (rs : List Report) : ∀ c : Chain W V, Filed acct c (fileReports acct slash c rs) rs := by
  induction rs with
  | nil => intro c; exact Filed.refl c
  | cons r rs ih => intro c; exact (fileReport_filed slash c r).append (ih _)

/-- The events of filing reports. -/
theorem fileReport_events (slash : Nat → Bool) (rs : List Report) : ∀ c : Chain W V, ∃ new,
    (fileReports acct slash c rs).events = c.events ++ new ∧ new.Sublist (rs.map fun r => (r.kind, r.who)) ∧
    ∀ r ∈ rs, ∀ x ∈ r.who, x ∉ c.known c.session → ∃ e ∈ new, x ∈ e.2 := by
  induction rs with
  | nil => intro c; exact ⟨[], by simp [fileReports], by simp, by simp⟩
  | cons r rs ih =>
    intro c
    obtain ⟨new, h1, h2, h3⟩ := ih (fileReport acct slash c r)
    have hs : (fileReport acct slash c r).session = c.session := (fileReport_filed slash c r).session
    have he : fileReports acct slash c (r :: rs) = fileReports acct slash (fileReport acct slash c r) rs := rfl
    rw [he, h1]
    by_cases hf : ∀ x ∈ r.who, x ∈ c.known c.session
    · have hc : fileReport acct slash c r = c := by
        unfold fileReport
        by_cases k1 : r.who = []
        · rw [if_pos k1]
        · rw [if_neg k1, if_pos (by rw [List.all_eq_true]; intro x hx; simpa using hf x hx)]
      rw [hc] at h3 ⊢
      refine ⟨new, rfl, h2.cons _, fun r' hr' x hx hn => ?_⟩
      rcases List.mem_cons.1 hr' with rfl | hr'
      · exact absurd (hf x hx) hn
      · exact h3 r' hr' x hx hn
    · push Not at hf
      obtain ⟨y, hy, hyn⟩ := hf
      have hc : (fileReport acct slash c r).events = c.events ++ [(r.kind, r.who)] := by
        unfold fileReport
        rw [if_neg (List.ne_nil_of_mem hy), if_neg]
        rw [List.all_eq_true]
        intro h
        exact hyn (by simpa using h y hy)
      rw [hc, List.append_assoc]
      refine ⟨(r.kind, r.who) :: new, rfl, h2.cons_cons _, fun r' hr' x hx hn => ?_⟩
      by_cases hxr : x ∈ r.who
      · exact ⟨_, List.mem_cons_self, hxr⟩
      rcases List.mem_cons.1 hr' with rfl | hr'
      · exact absurd hx hxr
      · have hk : x ∉ (fileReport acct slash c r).known (fileReport acct slash c r).session := by
          intro hk
          rcases (fileReport_filed slash c r).known _ _ hk with k | ⟨-, r2, k2, k3⟩
          · rw [hs] at k; exact hn k
          · rw [List.mem_singleton] at k2; subst k2; exact hxr k3
        obtain ⟨e, e1, e2⟩ := h3 r' hr' x hx hk
        exact ⟨e, List.mem_cons_of_mem _ e1, e2⟩

/-- A call of the bridge. -/
theorem bridge_step (c : Chain W V) (op : ChainStep W V) (hb : IsBridge op) :
    ∃ c1 : Chain W V, c1.session = c.session ∧ c1.known = c.known ∧ c1.handler = c.handler ∧
      Filed acct c1 (Chain.step env handler acct c op) (reportsOf env handler c op) := by
  cases op with
  | tx slash op => exact ⟨{ c with tx := (stepTx env c.tx op).1 }, rfl, rfl, rfl, fileReports_filed slash _ _⟩
  | ev slash op => exact ⟨{ c with ev := (stepEv handler c.ev op).1 }, rfl, rfl, rfl, fileReports_filed slash _ _⟩
  | newSession i => exact absurd hb id
  | other o => exact absurd hb id

theorem Named.mono {c0 : Chain W V} {steps : List (ChainStep W V)} {i x : Nat} (op : ChainStep W V) (h : Named env handler acct c0 steps i x) :
    Named env handler acct c0 (steps ++ [op]) i x := by
  obtain ⟨pre, o, post, r, rfl, h⟩ := h
  exact ⟨pre, o, post ++ [op], r, by simp, h⟩

theorem known_named (c0 : Chain W V) (h0 : c0.known = fun _ => []) (steps : List (ChainStep W V)) :
    ∀ i x, x ∈ (Chain.run env handler acct c0 steps).known i → Named env handler acct c0 steps i x := by
  induction steps using List.reverseRecOn with
  | nil => intro i x hx; simp [Chain.run, h0] at hx
  | append_singleton steps op ih =>
    intro i x hx
    rw [run_snoc] at hx
    by_cases hb : IsBridge op
    · obtain ⟨c1, e1, e2, e3, hf⟩ := bridge_step (acct := acct) env handler (Chain.run env handler acct c0 steps) op hb
      rcases hf.known i x hx with h | ⟨h1, r, h2, h3⟩
      · rw [e2] at h; exact (ih i x h).mono env handler op
      · exact ⟨steps, op, [], r, rfl, by rw [h1, e1], h2, h3⟩
    · have : (Chain.step env handler acct (Chain.run env handler acct c0 steps) op).known = (Chain.run env handler acct c0 steps).known := by
        cases op with
        | tx slash op => exact absurd trivial hb
        | ev slash op => exact absurd trivial hb
        | newSession i => rfl
        | other o => rfl
      rw [this] at hx
      exact (ih i x hx).mono env handler op

variable (acct)

/-! ### C107 -/

/-- **C107, punishment follows reports.** When a call of the bridge makes the offence handler announce or slash an account, the bridge
named that account in a report during the same session (in this call or before). -/
theorem C107_punished_only_if_named (c0 : Chain W V) (h0 : c0.known = fun _ => []) (steps : List (ChainStep W V)) (op : ChainStep W V)
    (hb : IsBridge op) :
    ∃ new, (Chain.run env handler acct c0 (steps ++ [op])).handler.log = (Chain.run env handler acct c0 steps).handler.log ++ new ∧
      ∀ v, (Offence.Obs.reported v ∈ new ∨ ∃ b, Offence.Obs.slashed v b ∈ new) →
        ∃ x, v = acct x ∧ Named env handler acct c0 (steps ++ [op]) (Chain.run env handler acct c0 steps).session x := by
  obtain ⟨c1, e1, e2, e3, hf⟩ := bridge_step (acct := acct) env handler (Chain.run env handler acct c0 steps) op hb
  obtain ⟨new, h1, h2⟩ := hf.log
  rw [e3] at h1
  rw [e1] at h2
  refine ⟨new, by rw [run_snoc]; exact h1, fun v hv => ?_⟩
  have : ∃ x ∈ (Chain.step env handler acct (Chain.run env handler acct c0 steps) op).known (Chain.run env handler acct c0 steps).session,
      v = acct x := by
    rcases hv with hv | ⟨b, hv⟩
    · exact (h2 v).1 hv
    · exact (h2 v).2 b hv
  obtain ⟨x, hx, hxv⟩ := this
  exact ⟨x, hxv, known_named env handler c0 h0 (steps ++ [op]) _ x (by rw [run_snoc]; exact hx)⟩

/-- **C107, reports reach the handler.** An account named by the bridge for the first time in a session is afterwards recorded by the
offence handler. -/
theorem C107_named_is_recorded (c : Chain W V) (op : ChainStep W V) (r : Report) (hr : r ∈ reportsOf env handler c op) (x : Nat)
    (hx : x ∈ r.who) (hnew : x ∉ c.known c.session) :
    ((Chain.step env handler acct c op).handler.reported (acct x)).isSome = true := by
  have hb : IsBridge op := by
    cases op with
    | tx slash op => trivial
    | ev slash op => trivial
    | newSession i => simp [reportsOf] at hr
    | other o => simp [reportsOf] at hr
  obtain ⟨c1, e1, e2, e3, hf⟩ := bridge_step (acct := acct) env handler c op hb
  exact hf.done x (hf.all r hr x hx) (by rw [e1, e2]; exact hnew)

/-- **C107, reports are announced.** The offence events of a call of the bridge repeat reports filed by that call, with kind and names,
in order; and every account named for the first time in the session is in one of them. -/
theorem C107_reports_are_announced (c : Chain W V) (op : ChainStep W V) :
    ∃ new, (Chain.step env handler acct c op).events = c.events ++ new ∧
      new.Sublist ((reportsOf env handler c op).map fun r => (r.kind, r.who)) ∧
      ∀ r ∈ reportsOf env handler c op, ∀ x ∈ r.who, x ∉ c.known c.session → ∃ e ∈ new, x ∈ e.2 := by
  cases op with
  | tx slash op => exact fileReport_events slash _ { c with tx := (stepTx env c.tx op).1 }
  | ev slash op => exact fileReport_events slash _ { c with ev := (stepEv handler c.ev op).1 }
  | newSession i => exact ⟨[], by simp [Chain.step], by simp, by simp [reportsOf]⟩
  | other o => exact ⟨[], by simp [Chain.step], by simp, by simp [reportsOf]⟩

theorem handler_history (c0 : Chain W V) (steps : List (ChainStep W V)) :
    ∃ os : List Offence.Step, (Chain.run env handler acct c0 steps).handler = os.foldl Offence.step c0.handler := by
  induction steps using List.reverseRecOn with
  | nil => exact ⟨[], rfl⟩
  | append_singleton steps op ih =>
    obtain ⟨os, ih⟩ := ih
    rw [run_snoc]
    by_cases hb : IsBridge op
    · obtain ⟨c1, e1, e2, e3, hf⟩ := bridge_step (acct := acct) env handler (Chain.run env handler acct c0 steps) op hb
      obtain ⟨os', h⟩ := hf.history
      exact ⟨os ++ os', by rw [h, e3, ih, List.foldl_append]⟩
    · cases op with
      | tx slash op => exact absurd trivial hb
      | ev slash op => exact absurd trivial hb
      | newSession i => exact ⟨os, ih⟩
      | other o => exact ⟨os ++ [o], by rw [List.foldl_append, ← ih]; rfl⟩

/-- **C107, at most once.** However often the bridge names an account, the handler announces and slashes it at most once between two
registrations. -/
theorem C107_punished_once_per_registration (c0 : Chain W V) (h0 : c0.handler = Offence.init) (steps : List (ChainStep W V)) (v : Acct)
    (before segment after : List Offence.Obs)
    (hlog : (Chain.run env handler acct c0 steps).handler.log = before ++ segment ++ after) (hreg : Offence.Obs.registered v ∉ segment) :
    segment.countP (Offence.isReport v) ≤ 1 ∧ segment.countP (Offence.isSlash v) ≤ 1 := by
  obtain ⟨os, h⟩ := handler_history env handler acct c0 steps
  rw [h0] at h
  exact Offence.C68_punished_at_most_once os v before segment after (by rw [← hlog, h]; rfl) hreg

/-! ### C108 -/

theorem chain_tx (c0 : Chain W V) (steps : List (ChainStep W V)) :
    (Chain.run env handler acct c0 steps).tx = BridgeTx.run env c0.tx (txOps steps) := by
  induction steps using List.reverseRecOn with
  | nil => rfl
  | append_singleton steps op ih =>
    rw [run_snoc]
    cases op with
    | tx slash op =>
      have : txOps (steps ++ [(.tx slash op : ChainStep W V)]) = txOps steps ++ [op] := by simp [txOps]
      rw [this, BridgeTx.run_snoc, ← ih, ← stepTx_state]
      exact (fileReports_filed (acct := acct) slash _ _).tx
    | ev slash op =>
      have : txOps (steps ++ [(.ev slash op : ChainStep W V)]) = txOps steps := by simp [txOps]
      rw [this, ← ih]
      exact (fileReports_filed (acct := acct) slash _ _).tx
    | newSession i =>
      have : txOps (steps ++ [(.newSession i : ChainStep W V)]) = txOps steps := by simp [txOps]
      rw [this]; exact ih
    | other o =>
      have : txOps (steps ++ [(.other o : ChainStep W V)]) = txOps steps := by simp [txOps]
      rw [this]; exact ih

theorem chain_ev (c0 : Chain W V) (steps : List (ChainStep W V)) :
    (Chain.run env handler acct c0 steps).ev = EthBridge.run handler c0.ev (evOps steps) := by
  induction steps using List.reverseRecOn with
  | nil => rfl
  | append_singleton steps op ih =>
    rw [run_snoc]
    cases op with
    | tx slash op =>
      have : evOps (steps ++ [(.tx slash op : ChainStep W V)]) = evOps steps := by simp [evOps]
      rw [this, ← ih]
      exact (fileReports_filed (acct := acct) slash _ _).ev
    | ev slash op =>
      have : evOps (steps ++ [(.ev slash op : ChainStep W V)]) = evOps steps ++ [op] := by simp [evOps]
      rw [this, EthBridge.run_snoc, ← ih, ← stepEv_state]
      exact (fileReports_filed (acct := acct) slash _ _).ev
    | newSession i =>
      have : evOps (steps ++ [(.newSession i : ChainStep W V)]) = evOps steps := by simp [evOps]
      rw [this]; exact ih
    | other o =>
      have : evOps (steps ++ [(.other o : ChainStep W V)]) = evOps steps := by simp [evOps]
      rw [this]; exact ih

theorem txOps_split (steps : List (ChainStep W V)) (pre post : List (ChainStep W V)) (op : ChainStep W V) (h : steps = pre ++ op :: post) :
    txOps steps = txOps pre ++ txOps (op :: post) := by rw [h]; simp [txOps, List.filterMap_append]

theorem evOps_split (steps : List (ChainStep W V)) (pre post : List (ChainStep W V)) (op : ChainStep W V) (h : steps = pre ++ op :: post) :
    evOps steps = evOps pre ++ evOps (op :: post) := by rw [h]; simp [evOps, List.filterMap_append]

/-- **C108, partial.** On a chain where all accounts but fewer than the quorum report true outcomes of transactions and vote on events only
through their discovery task (on nodes that agree on the finalised Ethereum chain), while the additional transactions of every range are in
blocks up to its end: no call of the bridge ever makes the offence handler announce or slash an account of the former kind. (`hinj`: the
number `x` is the only one standing for its account.)
(What is missing: additional transactions after the end of the range, see `C108_additional_transactions_report_honest_authors`.) -/
theorem C108_honest_never_punished_partial (code : EventData → Nat) (contract : Addr)
    (truth : Option (BridgeTx.Request × Option (Nat × Nat × Nat)) → Bool) (F : List Log) (R : Hash → Option Nat) (bad : List Nat)
    (c0 : Chain W V) (w : V) (authors : List Nat) (size : Nat) (h0 : c0.known = fun _ => []) (htx : c0.tx.active = none)
    (hev : c0.ev = EthBridge.initial w authors size) (steps : List (ChainStep W V))
    (htruth : Truthful env truth bad c0.tx (txOps steps))
    (hfew : ∀ pre post, txOps steps = pre ++ post →
      0 < (BridgeTx.run env c0.tx pre).avn.validators.length ∧ (BridgeTx.run env c0.tx pre).avn.validators.length < 2 ^ 32 ∧
      bad.length < Avn.requiredFor ((BridgeTx.run env c0.tx pre).avn.validators.length - 1))
    (hh : HonestHistory handler code contract F R (· ∉ bad) c0.ev (evOps steps))
    (hb : FewDishonest handler (· ∉ bad) c0.ev (evOps steps))
    (hrange : ∀ pre post act, evOps steps = pre ++ post → (EthBridge.run handler c0.ev pre).active = some act →
      0 < act.range.length ∧ act.range.start < 4294967295 ∧ AdditionalInTime R act)
    (pre post : List (ChainStep W V)) (op : ChainStep W V) (he : steps = pre ++ op :: post) (hop : IsBridge op) (x : Nat) (hx : x ∉ bad)
    (hinj : ∀ y, acct y = acct x → y = x) :
    ∃ new, (Chain.run env handler acct c0 (pre ++ [op])).handler.log = (Chain.run env handler acct c0 pre).handler.log ++ new ∧
      Offence.Obs.reported (acct x) ∉ new ∧ ∀ b, Offence.Obs.slashed (acct x) b ∉ new := by
  obtain ⟨new, h1, h2⟩ := C107_punished_only_if_named env handler acct c0 h0 pre op hop
  suffices hno : ¬ (Offence.Obs.reported (acct x) ∈ new ∨ ∃ b, Offence.Obs.slashed (acct x) b ∈ new) from
    ⟨new, h1, fun h => hno (.inl h), fun b h => hno (.inr ⟨b, h⟩)⟩
  intro hm
  obtain ⟨y, hy, p, o, q, r, e1, -, e3, e4⟩ := h2 _ hm
  have := hinj y hy.symm
  subst this
  have hs : steps = p ++ o :: (q ++ post) := by
    rw [he, ← List.singleton_append, ← List.append_assoc, e1]; simp
  cases o with
  | tx slash o =>
    have hsplit := txOps_split steps p (q ++ post) _ hs
    have hcons : txOps ((.tx slash o : ChainStep W V) :: (q ++ post)) = o :: txOps (q ++ post) := by simp [txOps]
    rw [hcons] at hsplit
    obtain ⟨f1, f2, f3⟩ := hfew (txOps p) (o :: txOps (q ++ post)) hsplit
    have ht : Truthful env truth bad c0.tx (txOps p ++ [o]) := fun pre post' id ok hv z rep hz =>
      htruth pre (post' ++ txOps (q ++ post)) id ok hv z rep (by
        rw [hsplit, ← List.singleton_append, ← List.append_assoc, hz]; simp)
    have := (C108_truthful_never_reported env truth bad c0.tx htx (txOps p) o ht ⟨f1, f2⟩ f3).1 r (by
      rw [← chain_tx env handler acct c0 p]; exact e3) y e4
    exact hx this
  | ev slash o =>
    have hsplit := evOps_split steps p (q ++ post) _ hs
    have hcons : evOps ((.ev slash o : ChainStep W V) :: (q ++ post)) = o :: evOps (q ++ post) := by simp [evOps]
    rw [hcons] at hsplit
    have hsplit2 : evOps steps = (evOps p ++ [o]) ++ evOps (q ++ post) := by rw [hsplit]; simp
    rw [hsplit2] at hh hb
    have e3' : r ∈ (stepEv handler (EthBridge.run handler (EthBridge.initial w authors size) (evOps p)) o).2 := by
      rw [← hev, ← chain_ev env handler acct c0 p]; exact e3
    have hactive : ∃ act, (EthBridge.run handler (EthBridge.initial w authors size) (evOps p)).active = some act := by
      obtain ⟨a, pt, new', rfl, -, -⟩ := C107_only_processing_reports handler _ o (List.ne_nil_of_mem e3')
      rcases stepEv_cases handler (EthBridge.run handler (EthBridge.initial w authors size) (evOps p)) a pt with ⟨h, -⟩ | ⟨act, _, _, _, h, -⟩
      · rw [h] at e3'; simp at e3'
      · exact ⟨act, h⟩
    obtain ⟨act, hact⟩ := hactive
    obtain ⟨g1, g2, g3⟩ := hrange (evOps p) (o :: evOps (q ++ post)) act hsplit (by rw [hev]; exact hact)
    rw [hev] at hh hb
    exact C108_honest_voters_not_reported_partial handler code contract F R (· ∉ bad) w authors size (evOps p) o
      (HonestHistory.prefix hh) (FewDishonest.prefix hb) act hact g1 g2 g3 r e3' y e4 hx
  | newSession i => simp [reportsOf] at e3
  | other o => simp [reportsOf] at e3

/-! ### Instances -/

/-- Accounts of the example: the numbers up to 9 have different ones. -/
def exAcct (n : Nat) : Acct := Vector.replicate 32 (UInt8.ofNat (min n 10))
def exChain0 : Chain Nat Nat :=
  { tx := exSeven, ev := EthBridge.initial 0 [1, 2, 3, 4] 10, session := 5, known := fun _ => [], handler := Offence.init, events := [] }
def exAgree : Nat → Bool := fun _ => true
/-- Author 3 reports failure of transaction 5, authors 1 and 4 success. -/
def exLiar3 : List (BridgeTx.Step Nat) :=
  [.publish [65] [] [1] true, .ethTxHash 5 1234 2, .corroborate 5 false true 3 0, .corroborate 5 true true 1 0, .corroborate 5 true true 4 0]
/-- Slashing is enabled; author 3 lies about a transaction, and in the next session about events. -/
def exChainSteps : List (ChainStep Nat Nat) :=
  .other (.configure true true) :: (exLiar3.map (.tx exAgree)) ++ [.newSession 6] ++ (Discovery.exHistory.map (.ev exAgree))

/-- Author 3 is slashed, once, and reported twice; nobody else is. -/
example : (Chain.run BridgeTx.exEnv EthBridge.exHandler exAcct exChain0 exChainSteps).handler.log =
    [.configured true, .reported (exAcct 3), .slashed (exAcct 3) true] ∧
    (Chain.run BridgeTx.exEnv EthBridge.exHandler exAcct exChain0 exChainSteps).events = [(.challengedSuccess, [3]), (.invalidRange, [3])] := by
  decide +kernel

theorem prefix_take {α : Type} {l pre post : List α} (h : l = pre ++ post) : pre = l.take pre.length ∧ pre.length < l.length + 1 := by
  constructor
  · rw [h]; simp
  · rw [h]; simp; omega

example : ∀ y, exAcct y = exAcct 4 → y = 4 := by
  intro y h
  have h0 : (exAcct y).toArray[0]! = (exAcct 4).toArray[0]! := by rw [h]
  have h1 : UInt8.ofNat (min y 10) = UInt8.ofNat 4 := h0
  have h2 := congrArg UInt8.toNat h1
  simp only [UInt8.toNat_ofNat'] at h2
  omega

/-- This history meets the hypotheses of `C108_honest_never_punished_partial`. -/
example (pre post : List (ChainStep Nat Nat)) (op : ChainStep Nat Nat) (he : exChainSteps = pre ++ op :: post) (hop : IsBridge op) (x : Nat)
    (hx : x ∉ [3]) (hinj : ∀ y, exAcct y = exAcct x → y = x) :
    ∃ new, (Chain.run BridgeTx.exEnv EthBridge.exHandler exAcct exChain0 (pre ++ [op])).handler.log =
      (Chain.run BridgeTx.exEnv EthBridge.exHandler exAcct exChain0 pre).handler.log ++ new ∧
      Offence.Obs.reported (exAcct x) ∉ new ∧ ∀ b, Offence.Obs.slashed (exAcct x) b ∉ new := by
  have htx : txOps exChainSteps = exLiar3 := rfl
  have hev : evOps exChainSteps = Discovery.exHistory := rfl
  have hbad : (fun y : Nat => y ∉ [3]) = fun y => y ≠ 3 := by funext y; simp
  refine C108_honest_never_punished_partial BridgeTx.exEnv EthBridge.exHandler exAcct Discovery.exCode EventsClient.exBridge (fun _ => true)
    Discovery.exChain Discovery.exReceipt [3] exChain0 0 [1, 2, 3, 4] 10 rfl rfl rfl exChainSteps ?_ ?_ ?_ ?_ ?_ pre post op he hop x hx hinj
  · rw [htx]
    intro p q id ok hv y rep hs hy
    have hm : (.corroborate id ok hv y rep : BridgeTx.Step Nat) ∈ exLiar3 := by rw [hs]; simp
    simp [exLiar3] at hm
    rcases hm with h | h | h
    · exact absurd (by simp [h]) hy
    · exact h.2.1
    · exact h.2.1
  · rw [htx]
    intro p q hs
    obtain ⟨h1, h2⟩ := prefix_take hs
    have key : ∀ n : Fin 6, (BridgeTx.run BridgeTx.exEnv exSeven (exLiar3.take n)).avn.validators.length = 7 := by decide +kernel
    have := key ⟨p.length, h2⟩
    dsimp only at this
    rw [← h1] at this
    change 0 < (BridgeTx.run BridgeTx.exEnv exSeven p).avn.validators.length ∧
      (BridgeTx.run BridgeTx.exEnv exSeven p).avn.validators.length < 2 ^ 32 ∧
      [3].length < Avn.requiredFor ((BridgeTx.run BridgeTx.exEnv exSeven p).avn.validators.length - 1)
    rw [this]; decide
  · rw [hev, hbad]; exact Discovery.exHistory_honest
  · rw [hev, hbad]; exact Discovery.exHistory_few
  · rw [hev]
    intro p q act hs hact
    obtain ⟨h1, h2⟩ := prefix_take hs
    have key : ∀ n : Fin 6, ((EthBridge.run EthBridge.exHandler (EthBridge.initial 0 [1, 2, 3, 4] 10) (Discovery.exHistory.take n)).active.all
      fun act => decide (0 < act.range.length ∧ act.range.start < 4294967295 ∧ act.additional = [])) = true := by decide +kernel
    have := key ⟨p.length, h2⟩
    dsimp only at this
    rw [← h1] at this
    change (EthBridge.run EthBridge.exHandler (EthBridge.initial 0 [1, 2, 3, 4] 10) p).active = some act at hact
    rw [hact] at this
    simp only [Option.all_some, decide_eq_true_eq] at this
    exact ⟨this.1, this.2.1, by rw [AdditionalInTime, this.2.2]; simp⟩

/-- **C107, a note on sessions** (finding O2). Offenders of one session are handed to the handler together, again and again: an
account that was punished, and then registered anew in the same session, is punished again as soon as the bridge reports anybody else in
that session. Here account 1 registers again before author 3 is reported for votes on events. -/
theorem C107_reregistered_account_is_punished_again :
    (Chain.run BridgeTx.exEnv EthBridge.exHandler exAcct exChain0
      (.other (.configure true true) :: (exLiar.map (.tx exAgree)) ++ [.tx exAgree (.corroborate 5 true true 4 0)] ++
        [.other (.register (exAcct 1))] ++ (Discovery.exHistory.map (.ev exAgree)))).handler.log =
    [.configured true, .reported (exAcct 1), .slashed (exAcct 1) true, .registered (exAcct 1), .reported (exAcct 1), .slashed (exAcct 1) true,
      .reported (exAcct 3), .slashed (exAcct 3) true] := by
  decide +kernel

end Verif.BridgeOffence
