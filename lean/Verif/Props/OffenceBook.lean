import Verif.Model.OffenceBook
import Verif.Props.Offence
import Verif.Props.SummaryOffence
import Verif.Props.EthereumEvents
import Verif.Props.EthBridgeTx
import Mathlib.Data.List.Induction

/-!
# C125, C126, C127: the reports of all pallets, and what comes of them
-/

namespace Verif.OffenceBook

variable {W V E : Type} (env : Env W V E)

/-! ## Specification -/

/-- Before the history: nobody has been reported, the handler is as at genesis. -/
def Fresh (c : Chain W V E) : Prop := c.book.known = (fun _ _ => []) ∧ c.book.handler = Offence.init

/-- In this history, since its last change of session, some pallet reported `x` under the kind `k`. -/
def NamedThisSession (c0 : Chain W V E) (steps : List (Step W V E)) (k : Kind) (x : Nat) : Prop :=
  ∃ pre op post r, steps = pre ++ op :: post ∧ Step.newSession ∉ post ∧ r ∈ reports env (run env c0 pre) op ∧ r.1.kind = k ∧ x ∈ r.2

/-- In this history, since its last change of session, `v` registered as a validator. -/
def RegisteredThisSession (steps : List (Step W V E)) (v : Acct) : Prop :=
  ∃ pre post, steps = pre ++ Step.register v :: post ∧ Step.newSession ∉ post

/-- The handler has a record of `v`: it announced `v` since its last registration. -/
def Recorded (c : Chain W V E) (v : Acct) : Prop := (c.book.handler.reported v).isSome = true

/-! ## Filing reports -/

/-- What filing reports does to the book. -/
structure Filed (acct : Nat → Acct) (b b' : Book) (rs : List (Label × List Nat)) : Prop where
  session : b'.session = b.session
  grows : ∀ k i x, x ∈ b.known k i → x ∈ b'.known k i
  known : ∀ k i x, x ∈ b'.known k i → x ∈ b.known k i ∨ (i = b.session ∧ ∃ r ∈ rs, r.1.kind = k ∧ x ∈ r.2)
  all : ∀ r ∈ rs, ∀ x ∈ r.2, x ∈ b'.known r.1.kind b.session
  log : ∃ new, b'.handler.log = b.handler.log ++ new ∧
    (∀ v, Offence.Obs.registered v ∉ new) ∧ (∀ e, Offence.Obs.configured e ∉ new) ∧
    ∀ v, (Offence.Obs.reported v ∈ new ∨ ∃ ok, Offence.Obs.slashed v ok ∈ new) →
      ∃ k x, x ∈ b'.known k b.session ∧ v = acct x
  done : ∀ k, ∀ x ∈ b'.known k b.session, x ∉ b.known k b.session → (b'.handler.reported (acct x)).isSome = true
  mono : ∀ v, (b.handler.reported v).isSome = true → (b'.handler.reported v).isSome = true
  history : ∃ os : List Offence.Step, b'.handler = os.foldl Offence.step b.handler

theorem Filed.idle {acct : Nat → Acct} (b : Book) (rs : List (Label × List Nat)) (h : ∀ r ∈ rs, ∀ x ∈ r.2, x ∈ b.known r.1.kind b.session) :
    Filed acct b b rs :=
  ⟨rfl, fun _ _ _ h => h, fun _ _ _ h => .inl h, h, ⟨[], by simp, by simp, by simp, by simp⟩, fun _ x h h' => absurd h h', fun _ h => h, ⟨[], rfl⟩⟩

theorem Filed.append {acct : Nat → Acct} {b1 b2 b3 : Book} {p q : List (Label × List Nat)} (h : Filed acct b1 b2 p) (g : Filed acct b2 b3 q) :
    Filed acct b1 b3 (p ++ q) := by
  refine ⟨g.session.trans h.session, fun k i x m => g.grows k i x (h.grows k i x m), ?_, ?_, ?_, ?_, ?_, ?_⟩
  · intro k i x hx
    rcases g.known k i x hx with m | ⟨m1, r, m2, m3⟩
    · rcases h.known k i x m with m | ⟨m1, r, m2, m3⟩
      · exact .inl m
      · exact .inr ⟨m1, r, by simp [m2], m3⟩
    · exact .inr ⟨by rw [m1, h.session], r, by simp [m2], m3⟩
  · intro r hr x hx
    rcases List.mem_append.1 hr with hr | hr
    · exact g.grows _ _ _ (h.all r hr x hx)
    · rw [← h.session]; exact g.all r hr x hx
  · obtain ⟨n1, l1, r1, c1, p1⟩ := h.log
    obtain ⟨n2, l2, r2, c2, p2⟩ := g.log
    rw [h.session] at p2
    refine ⟨n1 ++ n2, by rw [l2, l1, List.append_assoc], ?_, ?_, ?_⟩
    · intro v m; rcases List.mem_append.1 m with m | m
      · exact r1 v m
      · exact r2 v m
    · intro v m; rcases List.mem_append.1 m with m | m
      · exact c1 v m
      · exact c2 v m
    · intro v m
      have : (Offence.Obs.reported v ∈ n1 ∨ ∃ ok, Offence.Obs.slashed v ok ∈ n1) ∨
          (Offence.Obs.reported v ∈ n2 ∨ ∃ ok, Offence.Obs.slashed v ok ∈ n2) := by
        rcases m with m | ⟨ok, m⟩ <;> rcases List.mem_append.1 m with m | m
        · exact .inl (.inl m)
        · exact .inr (.inl m)
        · exact .inl (.inr ⟨ok, m⟩)
        · exact .inr (.inr ⟨ok, m⟩)
      rcases this with m | m
      · obtain ⟨k, x, e1, e2⟩ := p1 v m; exact ⟨k, x, g.grows _ _ _ e1, e2⟩
      · exact p2 v m
  · intro k x hx hnew
    by_cases hm : x ∈ b2.known k b1.session
    · exact g.mono _ (h.done k x hm hnew)
    · rw [← h.session] at hx hm
      exact g.done k x hx hm
  · intro v hv; exact g.mono v (h.mono v hv)
  · obtain ⟨o1, e1⟩ := h.history
    obtain ⟨o2, e2⟩ := g.history
    exact ⟨o1 ++ o2, by rw [e2, e1, List.foldl_append]⟩

theorem onOffence_log (os : List (Acct × Bool)) : ∀ s : Offence.State, ∃ new, (Offence.onOffence os s).log = s.log ++ new ∧
    (∀ v, Offence.Obs.registered v ∉ new) ∧ (∀ e, Offence.Obs.configured e ∉ new) ∧
    ∀ v, (Offence.Obs.reported v ∈ new ∨ ∃ ok, Offence.Obs.slashed v ok ∈ new) → v ∈ os.map Prod.fst := by
  induction os with
  | nil => intro s; exact ⟨[], by simp [Offence.onOffence], by simp, by simp, by simp⟩
  | cons o os ih =>
    intro s
    obtain ⟨new, h1, r2, c2, h2⟩ := ih (Offence.handleOne s o)
    have hone : ∃ n1, (Offence.handleOne s o).log = s.log ++ n1 ∧ (∀ v, Offence.Obs.registered v ∉ n1) ∧
        (∀ e, Offence.Obs.configured e ∉ n1) ∧
        ∀ v, (Offence.Obs.reported v ∈ n1 ∨ ∃ ok, Offence.Obs.slashed v ok ∈ n1) → v = o.1 := by
      unfold Offence.handleOne
      by_cases h : (s.reported o.1).isSome = true
      · rw [if_pos h]; exact ⟨[], by simp, by simp, by simp, by simp⟩
      · rw [if_neg h]
        unfold Offence.punish
        by_cases hs : s.slashing = true
        · rw [if_pos hs]; exact ⟨_, rfl, by simp, by simp, by simp +contextual⟩
        · rw [if_neg hs]; exact ⟨_, rfl, by simp, by simp, by simp⟩
    obtain ⟨n1, h3, r3, c3, h4⟩ := hone
    refine ⟨n1 ++ new, ?_, ?_, ?_, ?_⟩
    · have : Offence.onOffence (o :: os) s = Offence.onOffence os (Offence.handleOne s o) := rfl
      rw [this, h1, h3, List.append_assoc]
    · intro v m; rcases List.mem_append.1 m with m | m
      · exact r3 v m
      · exact r2 v m
    · intro v m; rcases List.mem_append.1 m with m | m
      · exact c3 v m
      · exact c2 v m
    · intro v m
      have : (Offence.Obs.reported v ∈ n1 ∨ ∃ ok, Offence.Obs.slashed v ok ∈ n1) ∨
          (Offence.Obs.reported v ∈ new ∨ ∃ ok, Offence.Obs.slashed v ok ∈ new) := by
        rcases m with m | ⟨ok, m⟩ <;> rcases List.mem_append.1 m with m | m
        · exact .inl (.inl m)
        · exact .inr (.inl m)
        · exact .inl (.inr ⟨ok, m⟩)
        · exact .inr (.inr ⟨ok, m⟩)
      rcases this with m | m
      · simp [h4 v m]
      · simp only [List.map_cons, List.mem_cons]; exact .inr (h2 v m)

theorem file_filed (acct : Nat → Acct) (slash : Nat → Bool) (b : Book) (r : Label × List Nat) : Filed acct b (file acct slash b r) [r] := by
  unfold file
  by_cases h1 : r.2 = []
  · rw [if_pos h1]
    refine Filed.idle b [r] ?_
    intro r' hr x hx
    rw [List.mem_singleton] at hr
    subst hr
    rw [h1] at hx; simp at hx
  rw [if_neg h1]
  by_cases h2 : (r.2.all fun x => (b.known r.1.kind b.session).contains x) = true
  · rw [if_pos h2]
    refine Filed.idle b [r] ?_
    intro r' hr x hx
    rw [List.mem_singleton] at hr
    subst hr
    simpa using List.all_eq_true.1 h2 x hx
  rw [if_neg h2]
  dsimp only
  have hmem : ∀ x, x ∈ b.known r.1.kind b.session ++ (r.2.filter fun x => !(b.known r.1.kind b.session).contains x) ↔
      x ∈ b.known r.1.kind b.session ∨ x ∈ r.2 := by
    intro x
    rw [List.mem_append, List.mem_filter]
    by_cases h : x ∈ b.known r.1.kind b.session
    · simp [h]
    · simp [h]
  generalize hc : b.known r.1.kind b.session ++ (r.2.filter fun x => !(b.known r.1.kind b.session).contains x) = conc at hmem
  have hat : ∀ k i, upd b.known r.1.kind (upd (b.known r.1.kind) b.session conc) k i =
      if k = r.1.kind ∧ i = b.session then conc else b.known k i := by
    intro k i
    rw [upd_apply]
    by_cases hk : k = r.1.kind
    · rw [if_pos hk, upd_apply]
      by_cases hi : i = b.session
      · rw [if_pos hi, if_pos ⟨hk, hi⟩]
      · rw [if_neg hi, if_neg (fun h => hi h.2), hk]
    · rw [if_neg hk, if_neg (fun h => hk h.1)]
  refine ⟨rfl, ?_, ?_, ?_, ?_, ?_, ?_, ?_⟩
  · intro k i x hx
    dsimp only
    rw [hat]
    by_cases hi : k = r.1.kind ∧ i = b.session
    · rw [if_pos hi, hmem]; obtain ⟨e1, e2⟩ := hi; rw [← e1, ← e2]; exact .inl hx
    · rw [if_neg hi]; exact hx
  · intro k i x hx
    dsimp only at hx
    rw [hat] at hx
    by_cases hi : k = r.1.kind ∧ i = b.session
    · rw [if_pos hi, hmem] at hx
      obtain ⟨e1, e2⟩ := hi
      rcases hx with h | h
      · rw [← e1, ← e2] at h; exact .inl h
      · exact .inr ⟨e2, r, by simp, e1.symm, h⟩
    · rw [if_neg hi] at hx; exact .inl hx
  · intro r' hr x hx
    rw [List.mem_singleton] at hr
    subst hr
    dsimp only
    rw [hat, if_pos ⟨rfl, rfl⟩, hmem]
    exact .inr hx
  · dsimp only
    obtain ⟨new, e1, e2, e3, e4⟩ := onOffence_log (conc.map fun x => (acct x, slash x)) b.handler
    refine ⟨new, e1, e2, e3, fun v m => ?_⟩
    have := e4 v m
    rw [List.map_map] at this
    obtain ⟨x, h1, h2⟩ := List.mem_map.1 this
    exact ⟨r.1.kind, x, by rw [hat, if_pos ⟨rfl, rfl⟩]; exact h1, h2.symm⟩
  · intro k x hx hn
    dsimp only at hx ⊢
    rw [hat] at hx
    by_cases hi : k = r.1.kind ∧ b.session = b.session
    · rw [if_pos hi] at hx
      exact Offence.handle_all _ _ (acct x) (slash x) (List.mem_map.2 ⟨x, hx, rfl⟩)
    · rw [if_neg hi] at hx; exact absurd hx hn
  · intro v hv
    exact Offence.handle_reported_mono _ _ v hv
  · exact ⟨[.offence _], rfl⟩

theorem fileAll_filed (acct : Nat → Acct) (slash : Nat → Bool) (rs : List (Label × List Nat)) :
    ∀ b : Book, Filed acct b (fileAll acct slash b rs) rs := by
  induction rs with
  | nil => intro b; exact Filed.idle b [] (by simp)
  | cons r rs ih => intro b; exact (file_filed acct slash b r).append (ih _)

/-! ## Steps -/

theorem run_snoc (c : Chain W V E) (steps : List (Step W V E)) (op : Step W V E) :
    run env c (steps ++ [op]) = step env (run env c steps) op := by
  simp [run, List.foldl_append]

/-- A step files its reports, or is one of three others. -/
inductive Did (c : Chain W V E) (op : Step W V E) : Book → Prop
  | filed (b' : Book) (h : Filed env.acct c.book b' (reports env c op)) (h1 : op ≠ .newSession) (h2 : ∀ v, op ≠ .register v)
      (h3 : ∀ r e, op ≠ .configure r e) : Did c op b'
  | session (h : op = .newSession) : Did c op { c.book with session := c.book.session + 1 }
  | register (v : Acct) (h : op = .register v) : Did c op { c.book with handler := Offence.onRegistration v c.book.handler }
  | configure (r e : Bool) (h : op = .configure r e) : Did c op { c.book with handler := Offence.configureSlashing r e c.book.handler }

theorem did (c : Chain W V E) (op : Step W V E) : Did env c op (step env c op).book := by
  cases op with
  | bridgeTx slash o => exact .filed _ (fileAll_filed _ slash _ _) (by simp) (by simp) (by simp)
  | bridgeEv slash o => exact .filed _ (fileAll_filed _ slash _ _) (by simp) (by simp) (by simp)
  | summary slash o => exact .filed _ (fileAll_filed _ slash _ _) (by simp) (by simp) (by simp)
  | logs slash o => exact .filed _ (fileAll_filed _ slash _ _) (by simp) (by simp) (by simp)
  | unresponsive slash who => exact .filed _ (fileAll_filed _ slash _ _) (by simp) (by simp) (by simp)
  | newSession => exact .session rfl
  | register v => exact .register v rfl
  | configure r e => exact .configure r e rfl

variable {env}

theorem NamedThisSession.mono {c0 : Chain W V E} {steps : List (Step W V E)} {k : Kind} {x : Nat} (op : Step W V E)
    (h : NamedThisSession env c0 steps k x) (hop : op ≠ .newSession) : NamedThisSession env c0 (steps ++ [op]) k x := by
  obtain ⟨pre, o, post, r, rfl, h1, h2⟩ := h
  refine ⟨pre, o, post ++ [op], r, by simp, ?_, h2⟩
  intro m
  rcases List.mem_append.1 m with m | m
  · exact h1 m
  · exact hop (List.mem_singleton.1 m).symm

theorem RegisteredThisSession.mono {steps : List (Step W V E)} {v : Acct} (op : Step W V E)
    (h : RegisteredThisSession steps v) (hop : op ≠ .newSession) : RegisteredThisSession (steps ++ [op]) v := by
  obtain ⟨pre, post, rfl, h1⟩ := h
  refine ⟨pre, post ++ [op], by simp, ?_⟩
  intro m
  rcases List.mem_append.1 m with m | m
  · exact h1 m
  · exact hop (List.mem_singleton.1 m).symm

variable (env)

/-- The invariant of histories: nothing is known of later sessions; whom the book knows of in this session was named in it; and is on the
handler's record unless it registered meanwhile. -/
structure BookInv (c0 : Chain W V E) (steps : List (Step W V E)) : Prop where
  future : ∀ k i, (run env c0 steps).book.session < i → (run env c0 steps).book.known k i = []
  named : ∀ k x, x ∈ (run env c0 steps).book.known k (run env c0 steps).book.session → NamedThisSession env c0 steps k x
  recorded : ∀ k x, x ∈ (run env c0 steps).book.known k (run env c0 steps).book.session →
    Recorded (run env c0 steps) (env.acct x) ∨ RegisteredThisSession steps (env.acct x)
  history : ∃ os : List Offence.Step, (run env c0 steps).book.handler = Offence.run os

theorem bookInv (c0 : Chain W V E) (h0 : Fresh c0) (steps : List (Step W V E)) : BookInv env c0 steps := by
  induction steps using List.reverseRecOn with
  | nil =>
    obtain ⟨h1, h2⟩ := h0
    refine ⟨fun k i _ => by simp [run, h1], fun k x hx => ?_, fun k x hx => ?_, ⟨[], by simp [run, h2, Offence.run]⟩⟩
    · simp [run, h1] at hx
    · simp [run, h1] at hx
  | append_singleton steps op ih =>
    have hd := did env (run env c0 steps) op
    have hrun : (run env c0 (steps ++ [op])).book = (step env (run env c0 steps) op).book := by rw [run_snoc]
    rw [← hrun] at hd
    generalize hb' : (run env c0 (steps ++ [op])).book = b' at hd
    obtain ⟨f, n, r, hist⟩ := ih
    suffices h : (∀ k i, b'.session < i → b'.known k i = []) ∧
        (∀ k x, x ∈ b'.known k b'.session → NamedThisSession env c0 (steps ++ [op]) k x) ∧
        (∀ k x, x ∈ b'.known k b'.session →
          (b'.handler.reported (env.acct x)).isSome = true ∨ RegisteredThisSession (steps ++ [op]) (env.acct x)) ∧
        ∃ os : List Offence.Step, b'.handler = Offence.run os by
      obtain ⟨a1, a2, a3, a4⟩ := h
      exact ⟨by rw [hb']; exact a1, by rw [hb']; exact a2, by unfold Recorded; rw [hb']; exact a3, by rw [hb']; exact a4⟩
    obtain ⟨os, hist⟩ := hist
    cases hd with
    | filed _ hf h1 h2 h3 =>
      refine ⟨fun k i hi => ?_, fun k x hx => ?_, fun k x hx => ?_, ?_⟩
      · rw [hf.session] at hi
        apply List.eq_nil_iff_forall_not_mem.2
        intro x hx
        rcases hf.known k i x hx with m | ⟨m, -⟩
        · rw [f k i hi] at m; simp at m
        · omega
      · rw [hf.session] at hx
        rcases hf.known k _ x hx with m | ⟨-, rr, m2, m3, m4⟩
        · exact (n k x m).mono op h1
        · exact ⟨steps, op, [], rr, rfl, by simp, m2, m3, m4⟩
      · rw [hf.session] at hx
        by_cases m : x ∈ (run env c0 steps).book.known k (run env c0 steps).book.session
        · rcases r k x m with m' | m'
          · exact .inl (hf.mono _ m')
          · exact .inr (m'.mono op h1)
        · exact .inl (hf.done k x hx m)
      · obtain ⟨os', e⟩ := hf.history
        exact ⟨os ++ os', by rw [e, hist]; simp [Offence.run, List.foldl_append]⟩
    | session h =>
      refine ⟨fun k i hi => f k i (by dsimp only at hi; omega), fun k x hx => ?_, fun k x hx => ?_, ⟨os, hist⟩⟩
      · dsimp only at hx; rw [f k _ (Nat.lt_succ_self _)] at hx; simp at hx
      · dsimp only at hx; rw [f k _ (Nat.lt_succ_self _)] at hx; simp at hx
    | register v h =>
      refine ⟨f, fun k x hx => (n k x hx).mono op (by rw [h]; simp), fun k x hx => ?_, ⟨os ++ [.register v], ?_⟩⟩
      · by_cases hv : env.acct x = v
        · exact .inr ⟨steps, [], by rw [h, hv], by simp⟩
        · rcases r k x hx with m | m
          · left
            dsimp only [Offence.onRegistration]
            rw [upd_ne _ _ hv]; exact m
          · exact .inr (m.mono op (by rw [h]; simp))
      · dsimp only; rw [hist]; simp [Offence.run, List.foldl_append, Offence.step]
    | configure rt e h =>
      refine ⟨f, fun k x hx => (n k x hx).mono op (by rw [h]; simp), fun k x hx => ?_, ⟨os ++ [.configure rt e], ?_⟩⟩
      · rcases r k x hx with m | m
        · left
          dsimp only [Offence.configureSlashing]
          split
          · exact m
          · exact m
        · exact .inr (m.mono op (by rw [h]; simp))
      · dsimp only; rw [hist]; simp [Offence.run, List.foldl_append, Offence.step]

/-! ## C125 -/

/-- **C125, nobody is punished unreported.** Whatever a step makes the offence handler announce or slash was named, since the last change of
session, in a report of the summary pallet, of the Ethereum events pallet, of the bridge, or of `im_online`. -/
theorem C125_punished_only_if_reported (c0 : Chain W V E) (h0 : Fresh c0) (steps : List (Step W V E)) (op : Step W V E) :
    ∃ new, (run env c0 (steps ++ [op])).book.handler.log = (run env c0 steps).book.handler.log ++ new ∧
      ∀ v, (Offence.Obs.reported v ∈ new ∨ ∃ ok, Offence.Obs.slashed v ok ∈ new) →
        ∃ k x, v = env.acct x ∧ NamedThisSession env c0 (steps ++ [op]) k x := by
  have hi := bookInv env c0 h0 (steps ++ [op])
  have hd := did env (run env c0 steps) op
  have hrun : (run env c0 (steps ++ [op])).book = (step env (run env c0 steps) op).book := by rw [run_snoc]
  rw [← hrun] at hd
  have hn := hi.named
  generalize (run env c0 (steps ++ [op])).book = b' at hd hn ⊢
  cases hd with
  | filed _ hf h1 h2 h3 =>
    obtain ⟨new, e1, -, -, e4⟩ := hf.log
    refine ⟨new, e1, fun v hv => ?_⟩
    obtain ⟨k, x, hx, rfl⟩ := e4 v hv
    exact ⟨k, x, rfl, hn k x (by rw [hf.session]; exact hx)⟩
  | session h => exact ⟨[], by simp, by simp⟩
  | register v h => exact ⟨[.registered v], rfl, by simp⟩
  | configure r e h =>
    dsimp only [Offence.configureSlashing]
    split
    · exact ⟨[.configured e], rfl, by simp⟩
    · exact ⟨[], by simp, by simp⟩

/-- **C125, at most once.** However many pallets report a validator and however often, the handler announces and slashes it at most once
between two registrations. -/
theorem C125_punished_once_per_registration (c0 : Chain W V E) (h0 : Fresh c0) (steps : List (Step W V E)) (v : Acct)
    (before segment after : List Offence.Obs)
    (hlog : (run env c0 steps).book.handler.log = before ++ segment ++ after) (hreg : Offence.Obs.registered v ∉ segment) :
    segment.countP (Offence.isReport v) ≤ 1 ∧ segment.countP (Offence.isSlash v) ≤ 1 := by
  obtain ⟨os, h⟩ := (bookInv env c0 h0 steps).history
  exact Offence.C68_punished_at_most_once os v before segment after (by rw [← hlog, h]) hreg

/-- **C125, every report is heard.** After a step that reports `x`, the handler has a record of `x` — unless `x` registered in this very
session. -/
theorem C125_reported_is_recorded (c0 : Chain W V E) (h0 : Fresh c0) (steps : List (Step W V E)) (op : Step W V E) (r : Label × List Nat)
    (hr : r ∈ reports env (run env c0 steps) op) (x : Nat) (hx : x ∈ r.2)
    (hreg : ¬ RegisteredThisSession steps (env.acct x)) : Recorded (run env c0 (steps ++ [op])) (env.acct x) := by
  have hi := (bookInv env c0 h0 (steps ++ [op])).recorded
  have hd := did env (run env c0 steps) op
  have hrun : (run env c0 (steps ++ [op])).book = (step env (run env c0 steps) op).book := by rw [run_snoc]
  rw [← hrun] at hd
  have hknown : x ∈ (run env c0 (steps ++ [op])).book.known r.1.kind (run env c0 (steps ++ [op])).book.session ∧ (∀ v, op ≠ .register v) := by
    generalize (run env c0 (steps ++ [op])).book = b' at hd
    cases hd with
    | filed _ hf h1 h2 h3 => exact ⟨by rw [hf.session]; exact hf.all r hr x hx, h2⟩
    | session h => subst h; simp [reports] at hr
    | register v h => subst h; simp [reports] at hr
    | configure rt e h => subst h; simp [reports] at hr
  rcases hi r.1.kind x hknown.1 with h | ⟨pre, post, e1, e2⟩
  · exact h
  · exfalso
    apply hreg
    rcases List.eq_nil_or_concat post with rfl | ⟨post', o, rfl⟩
    · have := List.append_inj_right' e1 rfl
      exact absurd (List.cons.inj this).1 (hknown.2 _)
    · rw [List.concat_eq_append, ← List.cons_append, ← List.append_assoc] at e1
      obtain ⟨e3, e4⟩ := List.append_inj' e1 rfl
      exact ⟨pre, post', e3, fun m => e2 (by simp [m])⟩

/-! ## C126: who is reported -/

/-- Who deserves to be reported when the check `p` is processed: its checker if more validators challenged it than the threshold,
otherwise whoever challenged it. -/
def overruled (s : EthEvents.State E) (p : EthEvents.Pending) : List (Label × List Nat) :=
  if max p.check.minVotes (s.validators.length / s.quorumFactor) < (s.challenges p.check.event.id).length then
    [(.incorrectResult, [p.check.checkedBy])]
  else if s.challenges p.check.event.id = [] then []
  else [(.challengedValid, s.challenges p.check.event.id)]

theorem reports_settled (s : EthEvents.State E) (p : EthEvents.Pending) (id : EthEvents.EventId) (named : Nat) (tail : List EthEvents.Obs)
    (hid : p.check.event.id = id)
    (ht : ∀ o ∈ tail, (∀ who, o ≠ .offence who) ∧ ∀ i r, o ≠ .challengeSucceeded i r) :
    logReports ((EthEvents.settleNew s p id named ++ tail).map fun e => (s.block, e)) = overruled s p := by
  subst hid
  have htail : ∀ f : Label, (tail.map fun e => (s.block, e)).filterMap (asReport f) = [] := by
    intro f
    rw [List.filterMap_eq_nil_iff]
    intro a ha
    obtain ⟨o, ho, rfl⟩ := List.mem_map.1 ha
    cases o with
    | offence who => exact absurd rfl ((ht _ ho).1 who)
    | _ => rfl
  have hany : (tail.map fun e => (s.block, e)).any isSuccess = false := by
    rw [List.any_eq_false]
    intro a ha
    obtain ⟨o, ho, rfl⟩ := List.mem_map.1 ha
    cases o with
    | challengeSucceeded i r => exact absurd rfl ((ht _ ho).2 i r)
    | _ => simp [isSuccess]
  unfold overruled EthEvents.settleNew
  by_cases hc : EthEvents.challengeSuccessful s p.check = true
  · have hc' : max p.check.minVotes (s.validators.length / s.quorumFactor) < (s.challenges p.check.event.id).length := by
      simpa [EthEvents.challengeSuccessful] using hc
    rw [if_pos hc', if_pos hc]
    unfold logReports
    rw [List.map_append, List.filterMap_append, List.any_append, hany]
    simp [htail, isSuccess, asReport]
    rfl
  · have hc' : ¬ max p.check.minVotes (s.validators.length / s.quorumFactor) < (s.challenges p.check.event.id).length := by
      intro h; exact hc (by simpa [EthEvents.challengeSuccessful] using h)
    rw [if_neg hc', if_neg hc]
    by_cases hn : s.challenges p.check.event.id = []
    · rw [if_pos hn, if_pos hn]
      unfold logReports
      rw [List.map_append, List.filterMap_append, List.any_append, hany]
      simp [htail, isSuccess, asReport]
    · rw [if_neg hn, if_neg hn]
      unfold logReports
      rw [List.map_append, List.filterMap_append, List.any_append, hany]
      simp [htail, isSuccess, asReport]
      rfl

/-- **C126, Ethereum events.** Only the processing of a checked event reports anybody, and it reports the checker if the challenges prevail,
otherwise the challengers; a refused call reports nobody. (Partial: the challenges that count may be those of an earlier check of the same
event, see `C126_checker_reported_without_a_challenge`.) -/
theorem C126_log_reports_partial (c : Chain W V E) (slash : Nat → Bool) (op : EthEvents.Step E) :
    ((∀ id k n g, op ≠ .process id k n g) → reports env c (.logs slash op) = []) ∧
    ∀ id k n g, op = .process id k n g →
      (EthEvents.step env.logs c.logs op = c.logs ∧ reports env c (.logs slash op) = []) ∨
      ∃ p ∈ c.logs.pending, p.check.event.id = id ∧ p.check.readyAfter < c.logs.block ∧
        reports env c (.logs slash op) = overruled c.logs p := by
  have hv := EthEvents.step_view (handler := env.logs) c.logs op
  have hrep : reports env c (.logs slash op) = logReports ((EthEvents.step env.logs c.logs op).log.drop c.logs.log.length) := rfl
  constructor
  · intro hop
    rw [hrep]
    generalize EthEvents.step env.logs c.logs op = s' at hv
    cases hv with
    | frame s' hu hp hpr hc hq hi hf hl => rw [hl]; simp [logReports]
    | period p hp => simp [EthEvents.emit, logReports, asReport]
    | bridge tx acc h => simp [logReports]
    | added ty tx a nonces hf hpr hx hlen h0 => simp [EthEvents.emit, logReports, asReport]
    | submitted ck counter hv hex hb hs => simp [EthEvents.emit, logReports, asReport]
    | delivered id named p hp hb hr hc hn hv hs => obtain ⟨k, g, rfl⟩ := hs; exact absurd rfl (hop _ _ _ _)
    | refused id named p hp hb hr hv hs => obtain ⟨k, g, rfl⟩ := hs; exact absurd rfl (hop _ _ _ _)
    | challenged id by_ counter p hv hp hself hdup hs => simp [EthEvents.emit, logReports, asReport]
  · rintro id k n g rfl
    have hsame : EthEvents.step env.logs c.logs (.process id k n g) = c.logs →
        reports env c (.logs slash (.process id k n g)) = [] := by
      intro h; rw [hrep, h]; simp [logReports]
    by_cases h1 : EthEvents.validProcess c.logs id k n g = true
    swap
    · have : EthEvents.step env.logs c.logs (.process id k n g) = c.logs := by simp only [EthEvents.step, if_neg h1]
      exact .inl ⟨this, hsame this⟩
    have hst : EthEvents.step env.logs c.logs (.process id k n g) =
        EthEvents.commit c.logs (EthEvents.processEvent env.logs c.logs id n) := by simp only [EthEvents.step, if_pos h1]
    by_cases h2 : Avn.isValidator c.logs.validators n = false
    · have : EthEvents.step env.logs c.logs (.process id k n g) = c.logs := by
        rw [hst, EthEvents.processEvent, if_pos h2]; rfl
      exact .inl ⟨this, hsame this⟩
    cases hp : EthEvents.lastPending c.logs.pending id with
    | none =>
      have : EthEvents.step env.logs c.logs (.process id k n g) = c.logs := by
        rw [hst, EthEvents.processEvent, if_neg h2, hp]; rfl
      exact .inl ⟨this, hsame this⟩
    | some p =>
      obtain ⟨hmem, hid⟩ := EthEvents.lastPending_mem hp
      by_cases h3 : c.logs.block ≤ p.check.readyAfter
      · have : EthEvents.step env.logs c.logs (.process id k n g) = c.logs := by
          rw [hst, EthEvents.processEvent, if_neg h2, hp]
          dsimp only
          rw [if_pos h3]; rfl
        exact .inl ⟨this, hsame this⟩
      · right
        refine ⟨p, hmem, hid, by omega, ?_⟩
        by_cases h4 : p.check.result = .ok ∧ EthEvents.challengeSuccessful c.logs p.check = false ∧ c.logs.processed id.txHash = none
        · have : EthEvents.step env.logs c.logs (.process id k n g) =
              EthEvents.deliver env.logs (EthEvents.settle c.logs p id n) p id := by
            rw [hst, EthEvents.processEvent, if_neg h2, hp]
            dsimp only
            rw [if_neg h3, if_pos h4]; rfl
          rw [hrep, this, EthEvents.delivered_log, List.drop_left, ← List.map_append]
          refine reports_settled c.logs p id n _ hid ?_
          intro o ho
          simp only [List.mem_cons, List.not_mem_nil, or_false] at ho
          rcases ho with rfl | rfl
          · simp
          · split <;> simp
        · have : EthEvents.step env.logs c.logs (.process id k n g) =
              EthEvents.emit (EthEvents.settle c.logs p id n) [.rejected id p.check.result (EthEvents.challengeSuccessful c.logs p.check)] := by
            rw [hst, EthEvents.processEvent, if_neg h2, hp]
            dsimp only
            rw [if_neg h3, if_neg h4]; rfl
          rw [hrep, this, EthEvents.refused_log, List.drop_left, ← List.map_append]
          refine reports_settled c.logs p id n _ hid ?_
          intro o ho
          simp only [List.mem_singleton] at ho
          subst ho
          simp

/-- The summary pallet's calls in a history. -/
def summaryOps (steps : List (Step W V E)) : List Summary.Step := steps.filterMap fun | .summary _ op => some op | _ => none

theorem chain_summary (c0 : Chain W V E) (steps : List (Step W V E)) :
    (run env c0 steps).sum = Summary.run env.refOf c0.sum (summaryOps steps) := by
  induction steps using List.reverseRecOn with
  | nil => rfl
  | append_singleton steps op ih =>
    have hs : summaryOps (steps ++ [op]) = summaryOps steps ++ summaryOps [op] := by simp [summaryOps, List.filterMap_append]
    rw [run_snoc, hs]
    unfold Summary.run at ih ⊢
    rw [List.foldl_append, ← ih]
    cases op <;> rfl

/-- **C126, summaries.** In a history of the whole chain, the reports of a call of the summary pallet are those of the offences due
according to C83, no more and no fewer: voters against an approved root; the proposer and the supporters of a root not approved; the holder of
a slot that ends without a root, or is ended by a challenge. -/
theorem C126_summary_reports_are_due (c0 : Chain W V E) (sp vp first : Nat) (vs : List Avn.Validator) (a e : Bool) (g : Nat)
    (h0 : c0.sum = Summary.genesis sp vp first vs a e g) (steps : List (Step W V E)) (slash : Nat → Bool) (op : Summary.Step) :
    ∃ evs, (run env c0 (steps ++ [.summary slash op])).sum.log = (run env c0 steps).sum.log ++ evs ∧
      Summary.OffencesDue first (run env c0 steps).sum.log (run env c0 (steps ++ [.summary slash op])).sum.votes
        (fun rid => (Summary.getRoot (run env c0 (steps ++ [.summary slash op])).sum.roots rid).bind (·.addedBy)) evs ∧
      reports env (run env c0 steps) (.summary slash op) = summaryReports evs := by
  have h1 := chain_summary env c0 steps
  have h2 := chain_summary env c0 (steps ++ [.summary slash op])
  have hs : summaryOps (steps ++ [(.summary slash op : Step W V E)]) = summaryOps steps ++ [op] := by
    simp [summaryOps, List.filterMap_append]
  rw [h0] at h1 h2
  rw [hs] at h2
  obtain ⟨evs, e1, e2⟩ := Summary.C83_offences_are_exactly_those_due (refOf := env.refOf) sp vp first vs a e g (summaryOps steps) op
  rw [← h1, ← h2] at e1
  rw [← h1, ← h2] at e2
  refine ⟨evs, e1, e2, ?_⟩
  have : (Summary.step env.refOf (run env c0 steps).sum op) = (run env c0 (steps ++ [.summary slash op])).sum := by
    rw [run_snoc]; rfl
  simp only [reports]
  rw [this, e1, List.drop_left]

/-! ## C127: the events -/

/-- What the reports of one call add to the events. -/
theorem fileAll_events (acct : Nat → Acct) (slash : Nat → Bool) (rs : List (Label × List Nat)) : ∀ b : Book, ∃ new,
    (fileAll acct slash b rs).events = b.events ++ new ∧ new.Sublist rs ∧
    ∀ r ∈ rs, ∀ x ∈ r.2, x ∉ b.known r.1.kind b.session → ∃ e ∈ new, e.1.kind = r.1.kind ∧ x ∈ e.2 := by
  induction rs with
  | nil => intro b; exact ⟨[], by simp [fileAll], by simp, by simp⟩
  | cons r rs ih =>
    intro b
    obtain ⟨new, h1, h2, h3⟩ := ih (file acct slash b r)
    have hf := file_filed acct slash b r
    have he : fileAll acct slash b (r :: rs) = fileAll acct slash (file acct slash b r) rs := rfl
    rw [he, h1]
    by_cases hk : ∀ x ∈ r.2, x ∈ b.known r.1.kind b.session
    · have hc : file acct slash b r = b := by
        unfold file
        by_cases k1 : r.2 = []
        · rw [if_pos k1]
        · rw [if_neg k1, if_pos (by rw [List.all_eq_true]; intro x hx; simpa using hk x hx)]
      rw [hc] at h3 ⊢
      refine ⟨new, rfl, h2.cons _, fun r' hr' x hx hn => ?_⟩
      rcases List.mem_cons.1 hr' with rfl | hr'
      · exact absurd (hk x hx) hn
      · exact h3 r' hr' x hx hn
    · push Not at hk
      obtain ⟨y, hy, hyn⟩ := hk
      have hc : (file acct slash b r).events = b.events ++ [r] := by
        unfold file
        rw [if_neg (List.ne_nil_of_mem hy), if_neg]
        rw [List.all_eq_true]
        intro h
        exact hyn (by simpa using h y hy)
      rw [hc, List.append_assoc]
      refine ⟨r :: new, rfl, h2.cons_cons _, fun r' hr' x hx hn => ?_⟩
      rcases List.mem_cons.1 hr' with rfl | hr'
      · exact ⟨r', List.mem_cons_self, rfl, hx⟩
      by_cases hxr : x ∈ r.2 ∧ r.1.kind = r'.1.kind
      · exact ⟨r, List.mem_cons_self, hxr.2, hxr.1⟩
      · have hk : x ∉ (file acct slash b r).known r'.1.kind (file acct slash b r).session := by
          intro hk
          rw [hf.session] at hk
          rcases hf.known _ _ _ hk with k | ⟨-, r2, k2, k3, k4⟩
          · exact hn k
          · rw [List.mem_singleton] at k2; subst k2; exact hxr ⟨k4, k3⟩
        obtain ⟨e, e1, e2⟩ := h3 r' hr' x hx hk
        exact ⟨e, List.mem_cons_of_mem _ e1, e2⟩

/-- The pallet that reports an offence. -/
inductive Source where
  | ethBridge | summary | ethereumEvents | imOnline
  deriving DecidableEq

/-- Which pallet reports what. -/
def source : Label → Source
  | .bridge _ => .ethBridge
  | .summary _ => .summary
  | .incorrectResult => .ethereumEvents
  | .challengedValid => .ethereumEvents
  | .unresponsive => .imOnline

/-- C127: two reports are filed together exactly when the same pallet makes them, so a report of one pallet never hides one of another. -/
theorem C127_filed_together_iff_same_pallet (l l' : Label) : l.kind = l'.kind ↔ source l = source l' := by
  cases l <;> cases l' <;> simp [Label.kind, source]

/-- **C127, partial.** The offence events of a call repeat reports made by that call, in order, with type and names; and whoever is named under
a kind for the first time in the session is named in an event of that kind. (Missing: a report about accounts all of which have been reported
under the same kind in this session leaves no event, whatever its type: `C127_second_offence_is_not_announced`.) -/
theorem C127_announced_partial (c0 : Chain W V E) (h0 : Fresh c0) (steps : List (Step W V E)) (op : Step W V E) :
    ∃ new, (run env c0 (steps ++ [op])).book.events = (run env c0 steps).book.events ++ new ∧
      new.Sublist (reports env (run env c0 steps) op) ∧
      ∀ r ∈ reports env (run env c0 steps) op, ∀ x ∈ r.2, ¬ NamedThisSession env c0 steps r.1.kind x →
        ∃ e ∈ new, e.1.kind = r.1.kind ∧ x ∈ e.2 := by
  have hn := (bookInv env c0 h0 steps).named
  rw [run_snoc]
  have key : ∀ slash, ∃ new, (fileAll env.acct slash (run env c0 steps).book (reports env (run env c0 steps) op)).events =
      (run env c0 steps).book.events ++ new ∧ new.Sublist (reports env (run env c0 steps) op) ∧
      ∀ r ∈ reports env (run env c0 steps) op, ∀ x ∈ r.2, ¬ NamedThisSession env c0 steps r.1.kind x →
        ∃ e ∈ new, e.1.kind = r.1.kind ∧ x ∈ e.2 := by
    intro slash
    obtain ⟨new, e1, e2, e3⟩ := fileAll_events env.acct slash (reports env (run env c0 steps) op) (run env c0 steps).book
    exact ⟨new, e1, e2, fun r hr x hx hnm => e3 r hr x hx (fun hm => hnm (hn _ _ hm))⟩
  cases op with
  | bridgeTx slash o => exact key slash
  | bridgeEv slash o => exact key slash
  | summary slash o => exact key slash
  | logs slash o => exact key slash
  | unresponsive slash who => exact key slash
  | newSession => exact ⟨[], by simp [step], by simp, by simp [reports]⟩
  | register v => exact ⟨[], by simp [step], by simp, by simp [reports]⟩
  | configure r e => exact ⟨[], by simp [step], by simp, by simp [reports]⟩

/-! ## Instances and counterexamples -/

/-- The account of a number. -/
def exAcct (x : Nat) : Acct := Vector.replicate 32 (UInt8.ofNat x)
/-- The example surroundings. -/
def exEnv : Env Nat Nat Nat := { tx := BridgeTx.exEnv, ev := fun w _ => (w, true), refOf := Summary.exRef, logs := EthEvents.Example.accept, acct := exAcct }
/-- The example chain: the start states of the single examples. -/
def exChain : Chain Nat Nat Nat :=
  { tx := BridgeTx.ex0, ev := EthBridge.initial 0 [1, 2, 3, 4] 20, sum := Summary.exG, logs := EthEvents.Example.cfg.after EthEvents.Example.accept []
    book := { session := 0, known := fun _ _ => [], handler := Offence.init, events := [] } }

example : Fresh exChain := ⟨rfl, rfl⟩

/-- The history of `Summary.exOff`, in one session: validator 11 votes against a root that is approved, then holds a slot in which no root
is proposed, and lets others end it. -/
def exSum : List (Step Nat Nat Nat) := Summary.exOff.map (.summary fun _ => true)

/-- **C127 is false of the code.** Validator 11 commits three offences of different types in one session; the summary pallet announces only the
first. The two others, made in later blocks, leave no offence event. -/
theorem C127_second_offence_is_not_announced :
    (run exEnv exChain exSum).book.events = [(.summary .rejectedValidRoot, [11])] ∧
    Summary.Event.offence .slotNotAdvanced [11] ∈ (run exEnv exChain exSum).sum.log ∧
    Summary.Event.offence .noSummaryCreated [11] ∈ (run exEnv exChain exSum).sum.log ∧
    (run exEnv exChain exSum).book.handler.log = [.reported (exAcct 11)] := by decide +kernel

/-- In a session of its own, the second offence is announced (the third, of the same call, is not), and the handler, which still has 11 on
record, does not announce it a second time. -/
example : (run exEnv exChain (exSum.take 6 ++ [.newSession] ++ exSum.drop 6)).book.events =
      [(.summary .rejectedValidRoot, [11]), (.summary .slotNotAdvanced, [11])] ∧
    (run exEnv exChain (exSum.take 6 ++ [.newSession] ++ exSum.drop 6)).book.handler.log = [.reported (exAcct 11)] := by decide +kernel

/-- Reports of different pallets about the same validator are announced separately. -/
example : (run exEnv exChain (exSum.take 6 ++ [.unresponsive (fun _ => true) [11, 12]])).book.events =
      [(.summary .rejectedValidRoot, [11]), (.unresponsive, [11, 12])] ∧
    (run exEnv exChain (exSum.take 6 ++ [.unresponsive (fun _ => true) [11, 12]])).book.handler.log =
      [.reported (exAcct 11), .reported (exAcct 12)] := by decide +kernel

/-- **C126 is false of the code.** The history of `EthEvents.Example`: the first check of an event is successfully challenged; the event is added
and checked again by validator 11, nobody challenges this check, and 11 is reported all the same. -/
theorem C126_checker_reported_without_a_challenge :
    let steps : List (Step Nat Nat Nat) := (EthEvents.Example.challenged ++
      [.process (EthEvents.Example.mint 42) 3 10 true, .addLog .nftMint 42 1, EthEvents.Example.atBlock 66,
       .submit (EthEvents.Example.chk 42 66) 4 11 true true, EthEvents.Example.atBlock 200]).map (.logs fun _ => true)
    reports exEnv (run exEnv exChain steps) (.logs (fun _ => true) (.process (EthEvents.Example.mint 42) 4 10 true)) =
      [(.incorrectResult, [11])] := by decide +kernel

/-- A validator that registers in the session in which it was reported: a further report under the same kind is not heard (so the exception
in `C125_reported_is_recorded` is needed) … -/
theorem C125_report_after_registration_is_lost :
    let steps : List (Step Nat Nat Nat) := [.unresponsive (fun _ => true) [1], .register (exAcct 1), .unresponsive (fun _ => true) [1]]
    (run exEnv exChain steps).book.handler.reported (exAcct 1) = none := by decide +kernel

/-- … and a report about somebody else makes the handler announce it again, for what it did before it registered. -/
theorem C125_old_offence_after_registration :
    let steps : List (Step Nat Nat Nat) := [.unresponsive (fun _ => true) [1], .register (exAcct 1), .unresponsive (fun _ => true) [2]]
    (run exEnv exChain steps).book.handler.log =
      [.reported (exAcct 1), .registered (exAcct 1), .reported (exAcct 1), .reported (exAcct 2)] := by decide +kernel

end Verif.OffenceBook
