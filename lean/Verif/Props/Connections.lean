import Verif.Model.Connections
import Verif.Props.Discovery

/-!
# Properties C138–C141: the discovery task and its Ethereum nodes

What the addresses answer, what the Ethereum nodes and the runtime say, and which queries fail is arbitrary in every round. `task` is the
log of a node that looked for its author (`looks`) and then made the rounds of `history`.
-/

namespace Verif.Discovery

open Verif (Addr Hash)
open Verif.EthBridge (State Step Active initial)
open Verif.Parsing (EventData)

variable {W : Type}

/-! ### The connections -/

/-- Every connection was made to a configured address that had answered with the connection's network. -/
def Known (urls : List Url) (t : List (Ev W)) (cs : Conns) : Prop :=
  ∀ n u, connOf cs n = some u → Ev.asked u (.chain n) ∈ t ∧ u ∈ urls

/-- Connections stay. -/
def Kept (cs cs' : Conns) : Prop := ∀ n u, connOf cs n = some u → connOf cs' n = some u

/-- Only questions, no calls. -/
def OnlyAsked (evs : List (Ev W)) : Prop := ∀ e ∈ evs, ∃ u a, e = Ev.asked u a

theorem connOf_cons (cs : Conns) (n m : Nat) (u : Url) : connOf ((n, u) :: cs) m = if n = m then some u else connOf cs m := by
  unfold connOf
  rw [List.find?_cons]
  by_cases h : n = m
  · simp [h]
  · rw [if_neg h, beq_false_of_ne (show (n, u).1 ≠ m from h)]

theorem Kept.refl (cs : Conns) : Kept cs cs := fun _ _ h => h

theorem Kept.trans {a b c : Conns} (h : Kept a b) (g : Kept b c) : Kept a c := fun n u e => g n u (h n u e)

theorem Known.more {urls : List Url} {t : List (Ev W)} {cs : Conns} (h : Known urls t cs) (evs : List (Ev W)) :
    Known urls (t ++ evs) cs := fun n u e => ⟨List.mem_append_left _ (h n u e).1, (h n u e).2⟩

theorem kept_cons {cs : Conns} {n : Nat} (u : Url) (h : ¬ (connOf cs n).isSome) : Kept cs ((n, u) :: cs) := by
  intro m v e
  rw [connOf_cons]
  by_cases q : n = m
  · subst q; rw [e] at h; exact absurd rfl h
  · rw [if_neg q]; exact e

theorem known_cons {urls : List Url} {t : List (Ev W)} {cs : Conns} {n : Nat} {u : Url} (h : Known urls t cs) (hu : u ∈ urls) :
    Known urls (t ++ [Ev.asked u (.chain n)]) ((n, u) :: cs) := by
  intro m v e
  rw [connOf_cons] at e
  by_cases q : n = m
  · rw [if_pos q] at e; injection e with e; subst e; subst q
    exact ⟨List.mem_append_right _ (List.mem_singleton.mpr rfl), hu⟩
  · rw [if_neg q] at e; exact h.more _ m v e

theorem initialise_spec (urls : List Url) (ask : Url → Answer) (want : Nat) (us : List Url) (hus : ∀ u ∈ us, u ∈ urls) (t : List (Ev W))
    (cs : Conns) (h : Known urls t cs) (r : Conns × List (Ev W) × Option Url) (hr : initialise ask want us cs = r) :
    Known urls (t ++ r.2.1) r.1 ∧ Kept cs r.1 ∧ OnlyAsked r.2.1 ∧ ∀ u, r.2.2 = some u → connOf r.1 want = some u := by
  induction us generalizing t cs r with
  | nil =>
    subst hr
    exact ⟨h.more _, Kept.refl _, fun e he => (by cases he), fun u e => by cases e⟩
  | cons u us ih =>
    have hu : u ∈ urls := hus u List.mem_cons_self
    have hs : ∀ v ∈ us, v ∈ urls := fun v hv => hus v (List.mem_cons_of_mem _ hv)
    subst hr
    unfold initialise
    cases ha : ask u with
    | notAnUrl => exact ih hs t cs h _ rfl
    | silent =>
      dsimp only
      exact ⟨h.more _, Kept.refl _, fun e he => ⟨u, _, List.mem_singleton.mp he⟩, fun v e => by cases e⟩
    | chain n =>
      dsimp only
      by_cases hc : (connOf cs n).isSome
      · rw [if_pos hc]
        obtain ⟨a, b, c, d⟩ := ih hs (t ++ [Ev.asked u (.chain n)]) cs (h.more _) _ rfl
        refine ⟨?_, b, ?_, d⟩
        · rw [List.append_assoc] at a; exact a
        · intro e he
          rcases List.mem_cons.mp he with rfl | he
          · exact ⟨_, _, rfl⟩
          · exact c e he
      · rw [if_neg hc]
        by_cases hw : n = want
        · rw [if_pos hw]
          refine ⟨known_cons h hu, kept_cons u hc, fun e he => ⟨u, _, List.mem_singleton.mp he⟩, fun v e => ?_⟩
          rw [connOf_cons, if_pos hw]; exact e
        · rw [if_neg hw]
          obtain ⟨a, b, c, d⟩ := ih hs (t ++ [Ev.asked u (.chain n)]) ((n, u) :: cs) (known_cons h hu) _ rfl
          refine ⟨?_, (kept_cons u hc).trans b, ?_, d⟩
          · rw [List.append_assoc] at a; exact a
          · intro e he
            rcases List.mem_cons.mp he with rfl | he
            · exact ⟨_, _, rfl⟩
            · exact c e he

theorem OnlyAsked.append {a b : List (Ev W)} (h : OnlyAsked a) (g : OnlyAsked b) : OnlyAsked (a ++ b) := by
  intro e he
  rcases List.mem_append.mp he with he | he
  · exact h e he
  · exact g e he

theorem attempts_spec (urls : List Url) (ask : Nat → Url → Answer) (want : Nat) (left k : Nat) (t : List (Ev W))
    (cs : Conns) (h : Known urls t cs) (r : Conns × List (Ev W) × Option Url) (hr : attempts ask want urls left k cs = r) :
    Known urls (t ++ r.2.1) r.1 ∧ Kept cs r.1 ∧ OnlyAsked r.2.1 ∧ ∀ u, r.2.2 = some u → connOf r.1 want = some u := by
  induction left generalizing k t cs r with
  | zero =>
    subst hr
    exact ⟨h.more _, Kept.refl _, fun e he => (by cases he), fun u e => by cases e⟩
  | succ left ih =>
    subst hr
    unfold attempts
    rcases hi : (initialise (ask k) want urls cs : Conns × List (Ev W) × Option Url) with ⟨cs', evs, o⟩
    obtain ⟨a, b, c, d⟩ := initialise_spec urls (ask k) want urls (fun _ x => x) t cs h _ hi
    cases o with
    | some u => exact ⟨a, b, c, d⟩
    | none =>
      dsimp only
      obtain ⟨a', b', c', d'⟩ := ih (k + 1) (t ++ evs) cs' a _ rfl
      refine ⟨?_, b.trans b', c.append c', d'⟩
      rw [List.append_assoc] at a'; exact a'

theorem connect_spec (urls : List Url) (ask : Nat → Url → Answer) (want : Nat) (t : List (Ev W))
    (cs : Conns) (h : Known urls t cs) (r : Conns × List (Ev W) × Option Url) (hr : connect ask urls want cs = r) :
    Known urls (t ++ r.2.1) r.1 ∧ Kept cs r.1 ∧ OnlyAsked r.2.1 ∧ ∀ u, r.2.2 = some u → connOf r.1 want = some u := by
  unfold connect at hr
  cases hc : connOf cs want with
  | none => rw [hc] at hr; exact attempts_spec urls ask want _ _ t cs h r hr
  | some u =>
    rw [hc] at hr
    subst hr
    exact ⟨h.more _, Kept.refl _, fun e he => (by cases he), fun v e => by rw [hc]; exact e⟩

/-! ### One bridge -/

/-- A bridge's round with an answering Ethereum node is the round of `Model/DiscoveryWorker`. -/
theorem bridgeRound_ok (code : EventData → Nat) (me : Nat) (b : Bridge W) (u : Url) (o : Option (Step W))
    (h : bridgeRound code me b u = .ok o) : workerRound code b.contract { b.view u with me := me } b.reads = o := by
  unfold bridgeRound at h
  unfold workerRound
  dsimp only at h ⊢
  cases ha : b.reads.atRange.active with
  | none =>
    rw [ha] at h
    dsimp only at h ⊢
    by_cases hv : hasCastedVote b.reads.atVoted me
    · rw [if_pos hv] at h; cases h; unfold submitLatestBlock; rw [if_pos hv]
    · rw [if_neg hv] at h
      by_cases hl : b.latestFails
      · rw [if_pos hl] at h; cases h
      · rw [if_neg hl] at h; cases h; rfl
  | some act =>
    rw [ha] at h
    dsimp only at h ⊢
    by_cases hl : b.latestFails
    · rw [if_pos hl] at h; cases h
    · rw [if_neg hl] at h
      by_cases hf : blockFinalised { b.view u with me := me } act.range.endBlock
      · rw [if_pos hf] at h
        rw [if_pos hf]
        by_cases hv : hasCastedVote b.reads.atVoted me
        · rw [if_pos hv] at h; cases h; unfold processEvents; rw [if_pos hv]
        · rw [if_neg hv] at h
          by_cases hg : b.logsFail
          · rw [if_pos hg] at h; cases h
          · rw [if_neg hg] at h
            cases hp : processEvents code b.contract { b.view u with me := me } b.reads act.range act.partition with
            | none => rw [hp] at h; cases h
            | some op => rw [hp] at h; cases h; rfl
      · rw [if_neg hf] at h; cases h; rw [if_neg hf]

/-! ### The rounds -/

/-- A log in which every call for a bridge follows the answer of a configured address with the bridge's network, the call being the
round of a bridge of the history, read at that address. -/
def Sound (code : EventData → Nat) (urls : List Url) (me : Nat) (bridges : List (Bridge W)) (t : List (Ev W)) : Prop :=
  ∀ pre id chain u op post, t = pre ++ Ev.voted id chain u op :: post →
    (Ev.asked u (.chain chain) ∈ pre ∧ u ∈ urls) ∧
    ∃ b ∈ bridges, b.id = id ∧ b.chain = chain ∧ workerRound code b.contract { b.view u with me := me } b.reads = some op

theorem sound_asked {code : EventData → Nat} {urls : List Url} {me : Nat} {bridges : List (Bridge W)} {t evs : List (Ev W)}
    (h : Sound code urls me bridges t) (g : OnlyAsked evs) : Sound code urls me bridges (t ++ evs) := by
  intro pre id chain u op post e
  rcases List.append_eq_append_iff.mp e with ⟨a, h1, h2⟩ | ⟨c, h1, h2⟩
  · obtain ⟨v, w, q⟩ := g _ (h2 ▸ List.mem_append_right a List.mem_cons_self)
    cases q
  · cases c with
    | nil =>
      rw [List.nil_append] at h2
      obtain ⟨v, w, q⟩ := g (Ev.voted id chain u op) (h2 ▸ List.mem_cons_self)
      cases q
    | cons x c =>
      rw [List.cons_append] at h2
      injection h2 with h2 h3
      subst h2
      exact h pre id chain u op c h1

theorem sound_voted {code : EventData → Nat} {urls : List Url} {me : Nat} {bridges : List (Bridge W)} {t : List (Ev W)}
    (h : Sound code urls me bridges t) (b : Bridge W) (hb : b ∈ bridges) (u : Url) (op : Step W)
    (hk : Ev.asked u (.chain b.chain) ∈ t ∧ u ∈ urls)
    (hw : workerRound code b.contract { b.view u with me := me } b.reads = some op) :
    Sound code urls me bridges (t ++ [Ev.voted b.id b.chain u op]) := by
  intro pre id chain v op' post e
  rcases List.append_eq_append_iff.mp e with ⟨a, h1, h2⟩ | ⟨c, h1, h2⟩
  · cases a with
    | nil =>
      rw [List.nil_append] at h2
      injection h2 with h2 h3
      injection h2 with a1 a2 a3 a4
      subst a1 a2 a3 a4
      rw [List.append_nil] at h1
      subst h1
      exact ⟨hk, b, hb, rfl, rfl, hw⟩
    | cons x a =>
      rw [List.cons_append] at h2
      injection h2 with h2 h3
      have := congrArg List.length h3
      simp at this
  · cases c with
    | nil =>
      rw [List.nil_append] at h2
      injection h2 with h2 h3
      injection h2 with a1 a2 a3 a4
      subst a1 a2 a3 a4
      rw [List.append_nil] at h1
      subst h1
      exact ⟨hk, b, hb, rfl, rfl, hw⟩
    | cons x c =>
      rw [List.cons_append] at h2
      injection h2 with h2 h3
      subst h2
      exact h pre id chain v op' c h1

/-- Calls went to the connections there still are. -/
def Tied (t : List (Ev W)) (cs : Conns) : Prop := ∀ id chain u op, Ev.voted id chain u op ∈ t → connOf cs chain = some u

theorem Tied.step {t evs : List (Ev W)} {cs cs' : Conns} (h : Tied t cs) (k : Kept cs cs') (g : OnlyAsked evs) : Tied (t ++ evs) cs' := by
  intro id chain u op e
  rcases List.mem_append.mp e with e | e
  · exact k _ _ (h _ _ _ _ e)
  · obtain ⟨v, w, q⟩ := g _ e
    cases q

theorem fullRound_spec (code : EventData → Nat) (urls : List Url) (me : Nat) (bridges bs : List (Bridge W)) (hbs : ∀ b ∈ bs, b ∈ bridges)
    (t : List (Ev W)) (cs : Conns) (hk : Known urls t cs) (hs : Sound code urls me bridges t) (ht : Tied t cs) :
    Known urls (t ++ (fullRound code urls me bs cs).2) (fullRound code urls me bs cs).1 ∧
    Sound code urls me bridges (t ++ (fullRound code urls me bs cs).2) ∧
    Tied (t ++ (fullRound code urls me bs cs).2) (fullRound code urls me bs cs).1 := by
  induction bs generalizing t cs with
  | nil =>
    rw [show fullRound code urls me [] cs = (cs, []) from rfl]
    dsimp only
    rw [List.append_nil]
    exact ⟨hk, hs, ht⟩
  | cons b bs ih =>
    have hb : b ∈ bridges := hbs b List.mem_cons_self
    have hbs' : ∀ x ∈ bs, x ∈ bridges := fun x hx => hbs x (List.mem_cons_of_mem _ hx)
    unfold fullRound
    by_cases hr : b.runtimeFails
    · rw [if_pos hr]
      dsimp only
      rw [List.append_nil]
      exact ⟨hk, hs, ht⟩
    · rw [if_neg hr]
      rcases hc : (connect b.ask urls b.chain cs : Conns × List (Ev W) × Option Url) with ⟨cs', evs, o⟩
      obtain ⟨k1, k2, k3, k4⟩ := connect_spec urls b.ask b.chain t cs hk _ hc
      dsimp only at k1 k2 k3 k4
      have s1 := sound_asked hs k3
      have t1 := ht.step k2 k3
      cases o with
      | none =>
        dsimp only
        obtain ⟨a, b', c⟩ := ih hbs' (t ++ evs) cs' k1 s1 t1
        rw [List.append_assoc] at a b' c
        exact ⟨a, b', c⟩
      | some u =>
        dsimp only
        cases hw : bridgeRound code me b u with
        | error e => exact ⟨k1, s1, t1⟩
        | ok op =>
          dsimp only
          have hw' := bridgeRound_ok code me b u op hw
          cases op with
          | none =>
            rw [show Option.toList (none : Option (Step W)) = [] from rfl, List.map_nil, List.append_nil]
            obtain ⟨a, b', c⟩ := ih hbs' (t ++ evs) cs' k1 s1 t1
            rw [List.append_assoc] at a b' c
            exact ⟨a, b', c⟩
          | some op =>
            rw [show Option.toList (some op) = [op] from rfl, List.map_cons, List.map_nil]
            have kk := k1 b.chain u (k4 u rfl)
            have s2 := sound_voted s1 b hb u op kk hw'
            have t2 : Tied (t ++ evs ++ [Ev.voted b.id b.chain u op]) cs' := by
              intro id chain v o e
              rcases List.mem_append.mp e with e | e
              · exact t1 _ _ _ _ e
              · cases List.mem_singleton.mp e
                exact k4 u rfl
            obtain ⟨a, b', c⟩ := ih hbs' (t ++ evs ++ [Ev.voted b.id b.chain u op]) cs' (k1.more _) s2 t2
            simp only [List.append_assoc] at a b' c ⊢
            exact ⟨a, b', c⟩

theorem Sound.weaken {code : EventData → Nat} {urls : List Url} {me : Nat} {a b : List (Bridge W)} {t : List (Ev W)}
    (h : Sound code urls me a t) (g : ∀ x ∈ a, x ∈ b) : Sound code urls me b t := by
  intro pre id chain u op post e
  obtain ⟨p, x, hx, q⟩ := h pre id chain u op post e
  exact ⟨p, x, g x hx, q⟩

theorem rounds_spec (code : EventData → Nat) (urls : List Url) (me : Nat) (bridges : List (Bridge W)) (hist : List (List (Bridge W)))
    (hh : ∀ bs ∈ hist, ∀ b ∈ bs, b ∈ bridges) (t : List (Ev W)) (cs : Conns) (hk : Known urls t cs) (hs : Sound code urls me bridges t)
    (ht : Tied t cs) :
    Known urls (t ++ (rounds code urls me hist cs).2) (rounds code urls me hist cs).1 ∧
    Sound code urls me bridges (t ++ (rounds code urls me hist cs).2) ∧
    Tied (t ++ (rounds code urls me hist cs).2) (rounds code urls me hist cs).1 := by
  induction hist generalizing t cs with
  | nil =>
    rw [show rounds code urls me [] cs = (cs, []) from rfl]
    dsimp only
    rw [List.append_nil]
    exact ⟨hk, hs, ht⟩
  | cons bs rest ih =>
    obtain ⟨a, b, c⟩ := fullRound_spec code urls me bridges bs (hh bs List.mem_cons_self) t cs hk hs ht
    obtain ⟨a', b', c'⟩ := ih (fun x hx => hh x (List.mem_cons_of_mem _ hx)) _ _ a b c
    unfold rounds
    dsimp only
    rw [← List.append_assoc]
    exact ⟨a', b', c'⟩

theorem task_spec (code : EventData → Nat) (urls : List Url) (looks : List (Option (List (Nat × Nat)) × List Nat))
    (hist : List (List (Bridge W))) (a : Nat × Nat) (ha : startUp looks = some a) :
    ∃ cs, Sound code urls a.1 hist.flatten (task code urls looks hist) ∧ Tied (task code urls looks hist) cs := by
  have h := rounds_spec code urls a.1 hist.flatten hist (fun bs h b hb => List.mem_flatten.mpr ⟨bs, h, hb⟩) [] []
    (fun n u e => by cases e) (fun pre id chain u op post e => by simp at e) (fun id chain u op e => by cases e)
  unfold task
  rw [ha]
  rw [List.nil_append] at h
  exact ⟨_, h.2.1, h.2.2⟩

theorem task_started (code : EventData → Nat) (urls : List Url) (looks : List (Option (List (Nat × Nat)) × List Nat))
    (hist : List (List (Bridge W))) (e : Ev W) (h : e ∈ task code urls looks hist) : ∃ a, startUp looks = some a := by
  unfold task at h
  cases hs : startUp looks with
  | none => rw [hs] at h; cases h
  | some a => exact ⟨a, rfl⟩

/-! ### C138 -/

/-- C138. Before a call was submitted for a bridge, the configured address whose Ethereum node it was read from had answered with the
bridge's network. -/
theorem C138_calls_read_the_bridges_network (code : EventData → Nat) (urls : List Url)
    (looks : List (Option (List (Nat × Nat)) × List Nat)) (hist : List (List (Bridge W))) (pre post : List (Ev W)) (id chain : Nat) (u : Url)
    (op : Step W) (h : task code urls looks hist = pre ++ Ev.voted id chain u op :: post) :
    Ev.asked u (.chain chain) ∈ pre ∧ u ∈ urls := by
  obtain ⟨a, ha⟩ := task_started code urls looks hist (Ev.voted id chain u op) (h ▸ List.mem_append_right _ List.mem_cons_self)
  obtain ⟨cs, s, _⟩ := task_spec code urls looks hist a ha
  exact (s pre id chain u op post h).1

/-- C138. All calls for bridges of one network, in all rounds, were read from the same address. -/
theorem C138_one_node_per_network (code : EventData → Nat) (urls : List Url)
    (looks : List (Option (List (Nat × Nat)) × List Nat)) (hist : List (List (Bridge W))) (id id' chain : Nat) (u u' : Url) (op op' : Step W)
    (h : Ev.voted id chain u op ∈ task code urls looks hist) (h' : Ev.voted id' chain u' op' ∈ task code urls looks hist) : u = u' := by
  obtain ⟨a, ha⟩ := task_started code urls looks hist _ h
  obtain ⟨cs, _, t⟩ := task_spec code urls looks hist a ha
  have e := (t _ _ _ _ h).symm.trans (t _ _ _ _ h')
  injection e

/-- C138. A call for a bridge is what the discovery round of that bridge, of that network and with that bridge's contract, submits in
the name of the node's author. -/
theorem C138_calls_are_rounds_of_the_bridge (code : EventData → Nat) (urls : List Url)
    (looks : List (Option (List (Nat × Nat)) × List Nat)) (hist : List (List (Bridge W))) (id chain : Nat) (u : Url) (op : Step W)
    (h : Ev.voted id chain u op ∈ task code urls looks hist) :
    ∃ bs ∈ hist, ∃ b ∈ bs, ∃ a, startUp looks = some a ∧ b.id = id ∧ b.chain = chain ∧
      workerRound code b.contract { b.view u with me := a.1 } b.reads = some op := by
  obtain ⟨a, ha⟩ := task_started code urls looks hist _ h
  obtain ⟨cs, s, _⟩ := task_spec code urls looks hist a ha
  obtain ⟨pre, post, e⟩ := List.append_of_mem h
  obtain ⟨_, b, hb, q⟩ := s pre id chain u op post e
  obtain ⟨bs, h1, h2⟩ := List.mem_flatten.mp hb
  exact ⟨bs, h1, b, h2, a, ha, q⟩

/-! ### C139 -/

theorem initialise_finds (ask : Url → Answer) (want : Nat) (u : Url) (pre post : List Url) (cs : Conns) (hu : ask u = .chain want)
    (hp : ∀ v ∈ pre, ask v ≠ .silent) (hc : connOf cs want = none) :
    ∃ v, (initialise ask want (pre ++ u :: post) cs : Conns × List (Ev W) × Option Url).2.2 = some v := by
  induction pre generalizing cs with
  | nil =>
    rw [List.nil_append]
    unfold initialise
    rw [hu]
    dsimp only
    rw [hc, if_neg (by simp), if_pos rfl]
    exact ⟨u, rfl⟩
  | cons v pre ih =>
    have hp' : ∀ x ∈ pre, ask x ≠ .silent := fun x hx => hp x (List.mem_cons_of_mem _ hx)
    rw [List.cons_append]
    unfold initialise
    cases ha : ask v with
    | notAnUrl => exact ih cs hp' hc
    | silent => exact absurd ha (hp v List.mem_cons_self)
    | chain n =>
      dsimp only
      by_cases hn : (connOf cs n).isSome
      · rw [if_pos hn]; exact ih cs hp' hc
      · rw [if_neg hn]
        by_cases hw : n = want
        · rw [if_pos hw]; exact ⟨v, rfl⟩
        · rw [if_neg hw]
          refine ih _ hp' ?_
          rw [connOf_cons, if_neg hw]; exact hc

/-- A failed attempt makes no connection for the network. -/
theorem initialise_none (ask : Url → Answer) (want : Nat) (us : List Url) (cs : Conns) (hc : connOf cs want = none)
    (h : (initialise ask want us cs : Conns × List (Ev W) × Option Url).2.2 = none) :
    connOf (initialise ask want us cs : Conns × List (Ev W) × Option Url).1 want = none := by
  induction us generalizing cs with
  | nil => exact hc
  | cons u us ih =>
    unfold initialise at h ⊢
    cases ha : ask u with
    | notAnUrl => rw [ha] at h; exact ih cs hc h
    | silent => exact hc
    | chain n =>
      rw [ha] at h
      dsimp only at h ⊢
      by_cases hn : (connOf cs n).isSome
      · rw [if_pos hn] at h ⊢; exact ih cs hc h
      · rw [if_neg hn] at h ⊢
        by_cases hw : n = want
        · rw [if_pos hw] at h; cases h
        · rw [if_neg hw] at h ⊢
          refine ih _ ?_ h
          rw [connOf_cons, if_neg hw]; exact hc

theorem attempts_finds (ask : Nat → Url → Answer) (want : Nat) (u : Url) (pre post : List Url) (k : Nat)
    (hu : ask k u = .chain want) (hp : ∀ v ∈ pre, ask k v ≠ .silent) (left j : Nat) (cs : Conns) (hj : j ≤ k) (hk : k < j + left)
    (hc : connOf cs want = none) : ∃ v, (attempts ask want (pre ++ u :: post) left j cs : Conns × List (Ev W) × Option Url).2.2 = some v := by
  induction left generalizing j cs with
  | zero => omega
  | succ left ih =>
    unfold attempts
    rcases hi : (initialise (ask j) want (pre ++ u :: post) cs : Conns × List (Ev W) × Option Url) with ⟨cs', evs, o⟩
    cases o with
    | some v => exact ⟨v, rfl⟩
    | none =>
      dsimp only
      have hn : connOf cs' want = none := by
        have e := initialise_none (W := W) (ask j) want (pre ++ u :: post) cs hc (by rw [hi])
        rw [hi] at e; exact e
      by_cases q : j = k
      · subst q
        obtain ⟨v, e⟩ := initialise_finds (W := W) (ask j) want u pre post cs hu hp hc
        rw [hi] at e; cases e
      · exact ih (j + 1) cs' (by omega) (by omega) hn

/-- The bridge's network answers: in one of the three attempts some configured address answers with it, and no address before that one
fails to answer. -/
def Answered (urls : List Url) (b : Bridge W) : Prop :=
  ∃ k < 3, ∃ pre u post, urls = pre ++ u :: post ∧ b.ask k u = .chain b.chain ∧ ∀ v ∈ pre, b.ask k v ≠ .silent

/-- Nothing goes wrong with the bridge: the runtime answers, and so does every Ethereum node. -/
def Smooth (code : EventData → Nat) (me : Nat) (b : Bridge W) : Prop :=
  b.runtimeFails = false ∧ ∀ u, ∃ op, bridgeRound code me b u = .ok op

theorem connect_finds {urls : List Url} {b : Bridge W} (h : Answered urls b) (cs : Conns) :
    ∃ u, (connect b.ask urls b.chain cs : Conns × List (Ev W) × Option Url).2.2 = some u := by
  obtain ⟨k, hk, pre, u, post, rfl, hu, hp⟩ := h
  unfold connect
  cases hc : connOf cs b.chain with
  | some v => exact ⟨v, rfl⟩
  | none => exact attempts_finds b.ask b.chain u pre post k hu hp retryLimit 0 cs (Nat.zero_le _) (by unfold retryLimit; omega) hc

theorem fullRound_reaches (code : EventData → Nat) (urls : List Url) (me : Nat) (b : Bridge W) (pre post : List (Bridge W))
    (hp : ∀ x ∈ pre, Smooth code me x) (hb : b.runtimeFails = false) (ha : Answered urls b) (cs : Conns) :
    ∃ u, ∀ op, bridgeRound code me b u = .ok (some op) →
      Ev.voted b.id b.chain u op ∈ (fullRound code urls me (pre ++ b :: post) cs).2 := by
  induction pre generalizing cs with
  | nil =>
    rcases hc : (connect b.ask urls b.chain cs : Conns × List (Ev W) × Option Url) with ⟨cs', evs, o⟩
    obtain ⟨u, hu⟩ := connect_finds (W := W) ha cs
    rw [hc] at hu
    dsimp only at hu
    subst hu
    refine ⟨u, fun op ho => ?_⟩
    rw [List.nil_append]
    unfold fullRound
    rw [if_neg (by rw [hb]; simp), hc]
    dsimp only
    rw [ho]
    dsimp only
    exact List.mem_append_left _ (List.mem_append_right _ (List.mem_singleton.mpr rfl))
  | cons x pre ih =>
    obtain ⟨hx, hr⟩ := hp x List.mem_cons_self
    have hp' : ∀ y ∈ pre, Smooth code me y := fun y hy => hp y (List.mem_cons_of_mem _ hy)
    rw [List.cons_append]
    unfold fullRound
    rw [if_neg (by rw [hx]; simp)]
    rcases hc : (connect x.ask urls x.chain cs : Conns × List (Ev W) × Option Url) with ⟨cs', evs, o⟩
    cases o with
    | none =>
      dsimp only
      obtain ⟨u, h⟩ := ih hp' cs'
      exact ⟨u, fun op ho => List.mem_append_right _ (h op ho)⟩
    | some v =>
      dsimp only
      obtain ⟨o, ho⟩ := hr v
      rw [ho]
      dsimp only
      obtain ⟨u, h⟩ := ih hp' cs'
      exact ⟨u, fun op ho => List.mem_append_right _ (h op ho)⟩

theorem rounds_append (code : EventData → Nat) (urls : List Url) (me : Nat) (h g : List (List (Bridge W))) (cs : Conns) :
    rounds code urls me (h ++ g) cs =
      ((rounds code urls me g (rounds code urls me h cs).1).1,
       (rounds code urls me h cs).2 ++ (rounds code urls me g (rounds code urls me h cs).1).2) := by
  induction h generalizing cs with
  | nil => rfl
  | cons b h ih =>
    have c : ∀ x, rounds code urls me (b :: x) cs = ((rounds code urls me x (fullRound code urls me b cs).1).1,
        (fullRound code urls me b cs).2 ++ (rounds code urls me x (fullRound code urls me b cs).1).2) := fun _ => rfl
    rw [List.cons_append, c, c, ih, List.append_assoc]

/-- C140 (partial). In whatever history: a bridge whose network answers (with no failing address listed before), and before which no
bridge of the same round goes wrong, gets its round: there is an address such that the call the round at its Ethereum node results in is
submitted. Missing: the same when a bridge before goes wrong; see `C140_failing_bridge_stops_the_rest`. -/
theorem C140_bridge_gets_its_round_partial (code : EventData → Nat) (urls : List Url)
    (looks : List (Option (List (Nat × Nat)) × List Nat)) (a : Nat × Nat) (ha : startUp looks = some a)
    (before after : List (List (Bridge W))) (pre post : List (Bridge W)) (b : Bridge W)
    (hp : ∀ x ∈ pre, Smooth code a.1 x) (hb : b.runtimeFails = false) (hn : Answered urls b) :
    ∃ u, ∀ op, bridgeRound code a.1 b u = .ok (some op) →
      Ev.voted b.id b.chain u op ∈ task code urls looks (before ++ (pre ++ b :: post) :: after) := by
  unfold task
  rw [ha]
  dsimp only
  rw [rounds_append]
  obtain ⟨u, h⟩ := fullRound_reaches code urls a.1 b pre post hp hb hn (rounds code urls a.1 before []).1
  refine ⟨u, fun op ho => List.mem_append_right _ ?_⟩
  unfold rounds
  exact List.mem_append_left _ (h op ho)

/-- C139 (partial). In whatever history: the first bridge of a round gets its round when some configured address answers with its
network in one of three attempts, and no address listed before that one fails to answer. Missing: the same whatever the addresses before
do; see `C139_silent_first_address_hides_all`. -/
theorem C139_network_is_found_partial (code : EventData → Nat) (urls : List Url)
    (looks : List (Option (List (Nat × Nat)) × List Nat)) (a : Nat × Nat) (ha : startUp looks = some a)
    (before after : List (List (Bridge W))) (post : List (Bridge W)) (b : Bridge W) (hb : b.runtimeFails = false)
    (hn : ∃ k < 3, ∃ pre u post, urls = pre ++ u :: post ∧ b.ask k u = .chain b.chain ∧ ∀ v ∈ pre, b.ask k v ≠ .silent) :
    ∃ u, ∀ op, bridgeRound code a.1 b u = .ok (some op) →
      Ev.voted b.id b.chain u op ∈ task code urls looks (before ++ (b :: post) :: after) :=
  C140_bridge_gets_its_round_partial code urls looks a ha before after [] post b (fun x h => by cases h) hb hn

theorem fullRound_dead (code : EventData → Nat) (s : Url) (rest : List Url) (me : Nat) (bs : List (Bridge W))
    (hs : ∀ b ∈ bs, ∀ k, b.ask k s = .silent) :
    (fullRound code (s :: rest) me bs []).1 = [] ∧ OnlyAsked (fullRound code (s :: rest) me bs []).2 := by
  induction bs with
  | nil => exact ⟨rfl, fun e h => by cases h⟩
  | cons b bs ih =>
    obtain ⟨i1, i2⟩ := ih (fun x hx => hs x (List.mem_cons_of_mem _ hx))
    have hd := hs b List.mem_cons_self
    have one : ∀ k, (initialise (b.ask k) b.chain (s :: rest) [] : Conns × List (Ev W) × Option Url) = ([], [.asked s .silent], none) := by
      intro k
      unfold initialise
      rw [hd k]
    have all : ∀ left k, ∃ evs, (attempts b.ask b.chain (s :: rest) left k [] : Conns × List (Ev W) × Option Url) = ([], evs, none) ∧
        OnlyAsked evs := by
      intro left
      induction left with
      | zero => exact fun k => ⟨[], rfl, fun e h => by cases h⟩
      | succ left ih =>
        intro k
        obtain ⟨evs, e, o⟩ := ih (k + 1)
        unfold attempts
        rw [one k]
        dsimp only
        rw [e]
        exact ⟨_, rfl, OnlyAsked.append (fun x hx => ⟨s, _, List.mem_singleton.mp hx⟩) o⟩
    unfold fullRound
    by_cases hr : b.runtimeFails
    · rw [if_pos hr]; exact ⟨rfl, fun e h => by cases h⟩
    · rw [if_neg hr]
      obtain ⟨evs, e, o⟩ := all retryLimit 0
      have hc : (connect b.ask (s :: rest) b.chain [] : Conns × List (Ev W) × Option Url) = ([], evs, none) := e
      rw [hc]
      exact ⟨i1, o.append i2⟩

/-- C139, why not more: when the first configured address never answers, the node never submits anything for any bridge, whatever the
other addresses answer. -/
theorem C139_silent_first_address_hides_all (code : EventData → Nat) (s : Url) (rest : List Url)
    (looks : List (Option (List (Nat × Nat)) × List Nat)) (hist : List (List (Bridge W)))
    (hs : ∀ bs ∈ hist, ∀ b ∈ bs, ∀ k, b.ask k s = .silent) (id chain : Nat) (u : Url) (op : Step W) :
    Ev.voted id chain u op ∉ task code (s :: rest) looks hist := by
  intro h
  obtain ⟨a, ha⟩ := task_started code (s :: rest) looks hist _ h
  unfold task at h
  rw [ha] at h
  dsimp only at h
  clear ha
  induction hist with
  | nil => cases h
  | cons bs hist ih =>
    obtain ⟨e, o⟩ := fullRound_dead code s rest a.1 bs (hs bs List.mem_cons_self)
    unfold rounds at h
    dsimp only at h
    rw [e] at h
    rcases List.mem_append.mp h with h | h
    · obtain ⟨v, w, q⟩ := o _ h
      cases q
    · exact ih (fun x hx => hs x (List.mem_cons_of_mem _ hx)) h

/-- C140, why not more: as long as the first bridge's round fails, there is no call for any other bridge, however well their Ethereum
nodes work. -/
theorem C140_failing_bridge_stops_the_rest (code : EventData → Nat) (urls : List Url)
    (looks : List (Option (List (Nat × Nat)) × List Nat)) (hist : List (List (Bridge W)))
    (hf : ∀ bs ∈ hist, ∃ b rest, bs = b :: rest ∧
      (b.runtimeFails = true ∨ Answered urls b ∧ ∀ me u, bridgeRound code me b u = .error ())) (id chain : Nat) (u : Url) (op : Step W) :
    Ev.voted id chain u op ∉ task code urls looks hist := by
  intro h
  obtain ⟨a, ha⟩ := task_started code urls looks hist _ h
  unfold task at h
  rw [ha] at h
  dsimp only at h
  clear ha
  suffices ∀ (hist : List (List (Bridge W))) (t : List (Ev W)) (cs : Conns), Known urls t cs →
      (∀ bs ∈ hist, ∃ b rest, bs = b :: rest ∧
      (b.runtimeFails = true ∨ Answered urls b ∧ ∀ me u, bridgeRound code me b u = .error ())) →
      Ev.voted id chain u op ∉ (rounds code urls a.1 hist cs).2 from this hist [] [] (fun n u e => by cases e) hf h
  intro hist
  induction hist with
  | nil => intro t cs _ _ h; cases h
  | cons bs hist ih =>
    intro t cs hk hf h
    obtain ⟨b, rest, rfl, hb⟩ := hf bs List.mem_cons_self
    have key : OnlyAsked (fullRound code urls a.1 (b :: rest) cs).2 ∧
        Known urls (t ++ (fullRound code urls a.1 (b :: rest) cs).2) (fullRound code urls a.1 (b :: rest) cs).1 := by
      unfold fullRound
      by_cases hr : b.runtimeFails
      · rw [if_pos hr]
        exact ⟨fun e h => (by cases h), by dsimp only; rw [List.append_nil]; exact hk⟩
      · rw [if_neg hr]
        rcases hb with hb | ⟨h1, h2⟩
        · exact absurd hb hr
        · obtain ⟨v, hv⟩ := connect_finds (W := W) h1 cs
          rcases hc : (connect b.ask urls b.chain cs : Conns × List (Ev W) × Option Url) with ⟨cs', evs, o⟩
          obtain ⟨k1, k2, k3, k4⟩ := connect_spec urls b.ask b.chain t cs hk _ hc
          rw [hc] at hv
          dsimp only at hv k1 k3
          subst hv
          dsimp only
          rw [h2 a.1 v]
          exact ⟨k3, k1⟩
    unfold rounds at h
    dsimp only at h
    rcases List.mem_append.mp h with h | h
    · obtain ⟨v, w, q⟩ := key.1 _ h
      cases q
    · exact ih _ _ key.2 (fun x hx => hf x (List.mem_cons_of_mem _ hx)) h

/-! ### C141 -/

theorem currentAuthor_some {as : Option (List (Nat × Nat))} {keys : List Nat} {a : Nat × Nat} (h : currentAuthor as keys = some a) :
    ∃ l, as = some l ∧ a ∈ l ∧ a.2 ∈ keys := by
  unfold currentAuthor at h
  cases as with
  | none => cases h
  | some l =>
    rw [Option.bind_some] at h
    exact ⟨l, rfl, List.mem_of_find?_eq_some h, by have e := List.find?_some h; exact of_decide_eq_true e⟩

theorem workerRound_caller (code : EventData → Nat) (contract : Addr) (nd : Node) (r : Reads W) (op : Step W)
    (h : workerRound code contract nd r = some op) : caller op = some nd.me := by
  unfold workerRound at h
  cases ha : r.atRange.active with
  | none =>
    rw [ha] at h
    dsimp only at h
    unfold submitLatestBlock at h
    split at h
    · cases h
    · injection h with h; subst h; rfl
  | some act =>
    rw [ha] at h
    dsimp only at h
    split at h
    · unfold processEvents at h
      split at h
      · cases h
      · split at h
        · cases h
        · injection h with h; subst h; rfl
    · cases h

/-- C141. Every call is made in the name of one account: an author of the chain at the moment the node found it, whose signing key is in
the node's keystore. -/
theorem C141_calls_in_own_name (code : EventData → Nat) (urls : List Url)
    (looks : List (Option (List (Nat × Nat)) × List Nat)) (hist : List (List (Bridge W))) (id chain : Nat) (u : Url) (op : Step W)
    (h : Ev.voted id chain u op ∈ task code urls looks hist) :
    ∃ me key, caller op = some me ∧ (∃ authors keys, (some authors, keys) ∈ looks ∧ (me, key) ∈ authors ∧ key ∈ keys) ∧
      ∀ id' chain' u' op', Ev.voted id' chain' u' op' ∈ task code urls looks hist → caller op' = some me := by
  obtain ⟨bs, _, b, _, a, ha, _, _, hw⟩ := C138_calls_are_rounds_of_the_bridge code urls looks hist id chain u op h
  refine ⟨a.1, a.2, workerRound_caller _ _ _ _ _ hw, ?_, ?_⟩
  · clear hw h
    induction looks with
    | nil => cases ha
    | cons l looks ih =>
      obtain ⟨as, keys⟩ := l
      unfold startUp at ha
      cases hc : currentAuthor as keys with
      | none =>
        rw [hc] at ha
        obtain ⟨x, y, h1, h2⟩ := ih ha
        exact ⟨x, y, List.mem_cons_of_mem _ h1, h2⟩
      | some c =>
        rw [hc] at ha
        injection ha with ha
        subst ha
        obtain ⟨l, rfl, h1, h2⟩ := currentAuthor_some hc
        exact ⟨l, keys, List.mem_cons_self, h1, h2⟩
  · intro id' chain' u' op' h'
    obtain ⟨_, _, b', _, a', ha', _, _, hw'⟩ := C138_calls_are_rounds_of_the_bridge code urls looks hist id' chain' u' op' h'
    have e := ha.symm.trans ha'
    injection e with e
    subst e
    exact workerRound_caller _ _ _ _ _ hw'

/-- C141. The node starts its rounds as soon as it sees an author whose signing key it holds: at the first such look, whatever it saw
before. -/
theorem C141_starts_when_it_is_an_author (looks later : List (Option (List (Nat × Nat)) × List Nat)) (authors : List (Nat × Nat))
    (keys : List Nat) (hno : ∀ l ∈ looks, ∀ as, l.1 = some as → ∀ a ∈ as, a.2 ∉ l.2) (h : ∃ a ∈ authors, a.2 ∈ keys) :
    ∃ a ∈ authors, a.2 ∈ keys ∧ startUp (looks ++ (some authors, keys) :: later) = some a := by
  induction looks with
  | nil =>
    obtain ⟨a, ha, hk⟩ := h
    rw [List.nil_append]
    unfold startUp
    cases hc : currentAuthor (some authors) keys with
    | none =>
      unfold currentAuthor at hc
      rw [Option.bind_some] at hc
      exact absurd (decide_eq_true hk) (List.find?_eq_none.mp hc a ha)
    | some c =>
      obtain ⟨l, e, h1, h2⟩ := currentAuthor_some hc
      injection e with e
      subst e
      exact ⟨c, h1, h2, rfl⟩
  | cons l looks ih =>
    obtain ⟨a, h1, h2, h3⟩ := ih (fun x hx => hno x (List.mem_cons_of_mem _ hx))
    refine ⟨a, h1, h2, ?_⟩
    obtain ⟨as, ks⟩ := l
    rw [List.cons_append]
    unfold startUp
    cases hc : currentAuthor as ks with
    | none => exact h3
    | some c =>
      obtain ⟨l, e, q1, q2⟩ := currentAuthor_some hc
      exact absurd q2 (hno _ List.mem_cons_self l e c q1)

/-! ### Examples -/

/-- A node with three addresses: an address of another network, one of the bridge's network, and another of it. -/
def exAsk : Nat → Url → Answer := fun _ u => if u = 0 then .chain 1 else .chain 5

/-- Two bridges of networks 5 and 1, of which the authors have not chosen a first range yet. -/
def exBridges (fails : Bool) : List (Bridge Nat) :=
  [⟨0, 5, Verif.EventsClient.exBridge, exAsk, fun _ => exNode1, ⟨initial 0 [1, 2, 3, 4] 10, initial 0 [1, 2, 3, 4] 10, initial 0 [1, 2, 3, 4] 10,
     initial 0 [1, 2, 3, 4] 10⟩, false, fails, false⟩,
   ⟨1, 1, Verif.EventsClient.exBridge, exAsk, fun _ => exNode1, ⟨initial 0 [1, 2, 3, 4] 10, initial 0 [1, 2, 3, 4] 10, initial 0 [1, 2, 3, 4] 10,
     initial 0 [1, 2, 3, 4] 10⟩, false, false, false⟩]

/-- The log without the calls' contents. -/
def exShow : Ev Nat → Nat × Nat × Nat
  | .asked u (.chain n) => (0, u, n)
  | .asked u _ => (1, u, 0)
  | .voted id chain u _ => (2 + id, u, chain)

/-- The first look finds no author. Network 5 is found at address 1 (and network 1 on the way); the second round asks nobody. -/
example : (task exCode [0, 1, 2] [(none, [7]), (some [(3, 9), (4, 7)], [7])] [exBridges false, exBridges false]).map exShow =
    [(0, 0, 1), (0, 1, 5), (2, 1, 5), (3, 0, 1), (2, 1, 5), (3, 0, 1)] := by decide +kernel

/-- When the first bridge's Ethereum node does not tell its latest block, nothing happens for the second bridge. -/
example : (task exCode [0, 1, 2] [(none, [7]), (some [(3, 9), (4, 7)], [7])] [exBridges true]).map exShow =
    [(0, 0, 1), (0, 1, 5)] := by decide +kernel

/-- The hypotheses of `C139_network_is_found_partial` and `C140_bridge_gets_its_round_partial` are met by the second bridge. -/
example : ∃ x y, exBridges false = [x] ++ y :: [] ∧ Smooth exCode 4 x ∧ y.runtimeFails = false ∧ Answered [0, 1, 2] y ∧
    startUp [(none, [7]), (some [(3, 9), (4, 7)], [7])] = some (4, 7) := by
  refine ⟨_, _, rfl, ⟨rfl, fun u => ⟨_, rfl⟩⟩, rfl, ⟨0, by omega, [], 0, [1, 2], rfl, rfl, fun v h => by cases h⟩, rfl⟩

/-- The hypotheses of `C140_failing_bridge_stops_the_rest` are met by this round. -/
example : ∃ b rest, exBridges true = b :: rest ∧ (b.runtimeFails = true ∨ Answered [0, 1, 2] b ∧
    ∀ me u, bridgeRound exCode me b u = .error ()) := by
  refine ⟨_, _, rfl, .inr ⟨⟨0, by omega, [0], 1, [2], rfl, rfl, fun v h => ?_⟩, fun me u => ?_⟩⟩
  · rw [List.mem_singleton.mp h]; exact fun h => by cases h
  · rfl

/-- The hypothesis of `C139_silent_first_address_hides_all`, with all other addresses answering. -/
example : (task exCode [0, 1, 2] [(some [(4, 7)], [7])]
    [(exBridges false).map fun b => { b with ask := fun _ u => if u = 0 then .silent else .chain 5 }]).map exShow =
    [(1, 0, 0), (1, 0, 0), (1, 0, 0), (1, 0, 0), (1, 0, 0), (1, 0, 0)] := by decide +kernel

end Verif.Discovery
