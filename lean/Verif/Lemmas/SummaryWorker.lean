import Verif.Model.SummaryWorker
import Verif.Props.Summary
import Verif.Props.Merkle
import Verif.Props.Calldata

namespace Verif.Summary

open Verif

variable {refOf : RootId → Nat → Nat}

/-! ### The proposed hash of a root id never changes -/

theorem processed_root {s s1 : State} {rid : RootId} {d : RootData} {pub : Option Nat} (hp : Processed s rid d pub s1)
    (hd : getRoot s.roots rid = some d) (x : RootId) (e : RootData) (he : getRoot s.roots x = some e) :
    ∃ e', getRoot s1.roots x = some e' ∧ e'.rootHash = e.rootHash ∧ e'.addedBy = e.addedBy := by
  cases hp with
  | empty => exact ⟨e, he, rfl, rfl⟩
  | anchored => exact ⟨e, he, rfl, rfl⟩
  | sent tx =>
    dsimp only
    rw [getRoot_mutate]
    by_cases h : x = rid
    · subst h; rw [hd] at he; cases he
      rw [if_pos rfl, hd]; exact ⟨_, rfl, rfl, rfl⟩
    · rw [if_neg h]; exact ⟨e, he, rfl, rfl⟩

theorem mutate_keeps {l : List (RootId × RootData)} {rid : RootId} {f : RootData → RootData}
    (hf : ∀ d, (f d).rootHash = d.rootHash ∧ (f d).addedBy = d.addedBy) (x : RootId) (e : RootData)
    (he : getRoot l x = some e) :
    ∃ e', getRoot (mutateRoot l rid f) x = some e' ∧ e'.rootHash = e.rootHash ∧ e'.addedBy = e.addedBy := by
  rw [getRoot_mutate]
  by_cases h : x = rid
  · subst h; rw [if_pos rfl, he]; exact ⟨_, rfl, (hf e).1, (hf e).2⟩
  · rw [if_neg h]; exact ⟨e, he, rfl, rfl⟩

theorem micro_root {s s' : State} {op : Step} (hi : Inv refOf s) (h : Micro refOf op s s') (x : RootId) (e : RootData)
    (he : getRoot s.roots x = some e) :
    ∃ e', getRoot s'.roots x = some e' ∧ e'.rootHash = e.rootHash ∧ e'.addedBy = e.addedBy := by
  cases h with
  | frame _ evs hf => rw [hf.2.2.1]; exact ⟨e, he, rfl, rfl⟩
  | recorded b h k who voteEnd hop hauth hslot hk htgt hfree hv =>
    simp only [recordEffects, getRoot_put]
    by_cases hx : x = ⟨⟨s.nextBlock, b⟩, k⟩
    · have := hi.rv x e he
      rw [hx, hv] at this; simp at this
    · rw [if_neg hx]; exact ⟨e, he, rfl, rfl⟩
  | voted => exact ⟨e, he, rfl, rfl⟩
  | approved rid v d pub s1 hval hv hd happ hacc =>
    have h1 : ∃ e', getRoot s1.roots x = some e' ∧ e'.rootHash = e.rootHash ∧ e'.addedBy = e.addedBy := by
      cases hacc with
      | submitted => exact ⟨e, he, rfl, rfl⟩
      | processed _ hp => exact processed_root hp hd x e he
    obtain ⟨e1, h2, h3, h4⟩ := h1
    obtain ⟨e2, h5, h6, h7⟩ := mutate_keeps (rid := rid) (f := fun d => { d with validated := true })
      (fun _ => ⟨rfl, rfl⟩) x e1 h2
    exact ⟨e2, h5, h6.trans h3, h7.trans h4⟩
  | rejected => exact ⟨e, he, rfl, rfl⟩
  | resolvedAccept rid ref d pub s1 hop hr hst hd hp => exact processed_root hp hd x e he
  | resolvedReject => exact ⟨e, he, rfl, rfl⟩
  | completed rid ref d pub s1 hop hr hd hp => exact processed_root hp hd x e he
  | stuck => exact ⟨e, he, rfl, rfl⟩
  | review => exact ⟨e, he, rfl, rfl⟩
  | finalised rid tx hop ht =>
    exact mutate_keeps (rid := rid) (f := fun d => { d with finalised := true }) (fun _ => ⟨rfl, rfl⟩) x e he

theorem step_root {s : State} (hi : Inv refOf s) (op : Step) (x : RootId) (e : RootData) (he : getRoot s.roots x = some e) :
    ∃ e', getRoot (step refOf s op).roots x = some e' ∧ e'.rootHash = e.rootHash ∧ e'.addedBy = e.addedBy := by
  have hv := step_view (refOf := refOf) s op
  generalize step refOf s op = s' at hv
  cases hv with
  | same => exact ⟨e, he, rfl, rfl⟩
  | one h => exact micro_root hi h x e he
  | two rid y a p q v v' hop hv hc h2 =>
    have hm := Micro.voted (refOf := refOf) rid y a p q v v' hop hv hc
    have hi' : Inv refOf { s with votes := upd s.votes rid (some v') } := hi.micro hm
    exact micro_root hi' (h2 (.cancelled 0)) x e he

theorem run_root {s : State} (hi : Inv refOf s) (steps : List Step) (x : RootId) (e : RootData)
    (he : getRoot s.roots x = some e) :
    ∃ e', getRoot (run refOf s steps).roots x = some e' ∧ e'.rootHash = e.rootHash ∧ e'.addedBy = e.addedBy := by
  induction steps using List.reverseRecOn with
  | nil => exact ⟨e, he, rfl, rfl⟩
  | append_singleton steps op ih =>
    obtain ⟨e1, h1, h2, h3⟩ := ih
    rw [run_snoc]
    obtain ⟨e2, h4, h5, h6⟩ := step_root (inv_run hi steps) op x e1 h1
    exact ⟨e2, h4, h5.trans h2, h6.trans h3⟩

/-! ### One entry per root id -/

/-- Every entry of the roots map is the one a lookup finds. -/
def Keyed (l : List (RootId × RootData)) : Prop := ∀ x ∈ l, getRoot l x.1 = some x.2

theorem keyed_put {l : List (RootId × RootData)} (h : Keyed l) (rid : RootId) (d : RootData) : Keyed (putRoot l rid d) := by
  intro x hx
  rw [getRoot_put]
  unfold putRoot at hx
  rcases List.mem_cons.1 hx with rfl | hx
  · simp
  · obtain ⟨h1, h2⟩ := List.mem_filter.1 hx
    rw [if_neg (by simpa using h2)]
    exact h x h1

theorem keyed_mutate {l : List (RootId × RootData)} (h : Keyed l) (rid : RootId) (f : RootData → RootData) :
    Keyed (mutateRoot l rid f) := keyed_put h rid _

theorem keyed_processed {s s1 : State} {rid : RootId} {d : RootData} {pub : Option Nat} (hp : Processed s rid d pub s1)
    (h : Keyed s.roots) : Keyed s1.roots := by
  cases hp with
  | empty => exact h
  | anchored => exact h
  | sent tx => exact keyed_mutate (l := s.roots) h rid (fun d => { d with txId := some tx })

theorem keyed_micro {s s' : State} {op : Step} (h : Keyed s.roots) (hm : Micro refOf op s s') : Keyed s'.roots := by
  cases hm with
  | frame _ evs hf => rw [hf.2.2.1]; exact h
  | recorded => exact keyed_put h _ _
  | voted => exact h
  | approved rid v d pub s1 hval hv hd happ hacc =>
    show Keyed (mutateRoot s1.roots rid (fun d => { d with validated := true }))
    refine keyed_mutate ?_ _ _
    cases hacc with
    | submitted => exact h
    | processed _ hp => exact keyed_processed hp h
  | rejected => exact h
  | resolvedAccept rid ref d pub s1 hop hr hst hd hp =>
    have h1 : Keyed s1.roots := keyed_processed hp h
    exact h1
  | resolvedReject => exact h
  | completed rid ref d pub s1 hop hr hd hp =>
    have h1 : Keyed s1.roots := keyed_processed (s := { s with extStatus := upd s.extStatus rid (some .accepted) }) hp h
    exact h1
  | stuck => exact h
  | review => exact h
  | finalised rid tx hop ht => exact keyed_mutate (l := s.roots) h rid (fun d => { d with finalised := true })

theorem keyed_run {s : State} (h : Keyed s.roots) (steps : List Step) : Keyed (run refOf s steps).roots := by
  induction steps using List.reverseRecOn with
  | nil => exact h
  | append_singleton steps op ih =>
    rw [run_snoc]
    have hv := step_view (refOf := refOf) (run refOf s steps) op
    generalize step refOf (run refOf s steps) op = s' at hv
    cases hv with
    | same => exact ih
    | one h => exact keyed_micro ih h
    | two rid y a p q v v' hop hv hc h2 =>
      exact keyed_micro (s := { run refOf s steps with votes := upd (run refOf s steps).votes rid (some v') }) ih (h2 (.cancelled 0))

/-! ### The ingress counter -/

theorem processed_total {s s1 : State} {rid : RootId} {d : RootData} {pub : Option Nat} (hp : Processed s rid d pub s1) :
    s1.totalIngresses = s.totalIngresses ∧ s1.nextBlock = s.nextBlock ∧ s1.pending = s.pending := by
  cases hp <;> exact ⟨rfl, rfl, rfl⟩

/-- A transition either increments the ingress counter (a proposal), or keeps it; in the second case it needs a pending root to
change the next block, and no new root becomes pending. -/
theorem micro_total {s s' : State} {op : Step} (h : Micro refOf op s s') :
    s'.totalIngresses = wrapInc64 s.totalIngresses ∨
    (s'.totalIngresses = s.totalIngresses ∧ ((∀ r, s.pending r = none) → (∀ r, s'.pending r = none) ∧ s'.nextBlock = s.nextBlock)) := by
  have nope : ∀ rid, sessionValid s rid = true → ¬ ∀ r, s.pending r = none := by
    intro rid hv h
    obtain ⟨_, _, _, h2, _⟩ := (sessionValid_iff s rid).1 hv
    rw [h] at h2; simp at h2
  cases h with
  | frame _ evs hf =>
    obtain ⟨f1, f2, f3, f4, f5, f6, f7, f8⟩ := hf
    exact .inr ⟨f8, fun h => ⟨by rw [f5]; exact h, f1⟩⟩
  | recorded b h k who voteEnd hop hauth hslot hk htgt hfree hv => left; rw [hk]; rfl
  | voted => exact .inr ⟨rfl, fun h => ⟨h, rfl⟩⟩
  | approved rid v d pub s1 hval hv hd happ hacc =>
    right
    refine ⟨?_, fun h => absurd h (nope rid hval)⟩
    cases hacc with
    | submitted => rfl
    | processed _ hp => exact (processed_total hp).1
  | rejected rid v d creator hval => exact .inr ⟨rfl, fun h => absurd h (nope rid hval)⟩
  | resolvedAccept rid ref d pub s1 hop hr hst hd hp =>
    obtain ⟨a, b, c⟩ := processed_total hp
    refine .inr ⟨a, fun h => ⟨?_, b⟩⟩
    intro r; show s1.pending r = none; rw [c]; exact h r
  | resolvedReject => exact .inr ⟨rfl, fun h => ⟨h, rfl⟩⟩
  | completed rid ref d pub s1 hop hr hd hp =>
    obtain ⟨a, b, c⟩ := processed_total hp
    refine .inr ⟨a, fun h => ⟨?_, b⟩⟩
    intro r; show s1.pending r = none; rw [c]; exact h r
  | stuck => exact .inr ⟨rfl, fun h => ⟨h, rfl⟩⟩
  | review => exact .inr ⟨rfl, fun h => ⟨h, rfl⟩⟩
  | finalised => exact .inr ⟨rfl, fun h => ⟨h, rfl⟩⟩

theorem step_total (s : State) (op : Step) :
    (step refOf s op).totalIngresses = wrapInc64 s.totalIngresses ∨
    ((step refOf s op).totalIngresses = s.totalIngresses ∧
      ((∀ r, s.pending r = none) → (∀ r, (step refOf s op).pending r = none) ∧ (step refOf s op).nextBlock = s.nextBlock)) := by
  have hv := step_view (refOf := refOf) s op
  generalize step refOf s op = s' at hv
  cases hv with
  | same => exact .inr ⟨rfl, fun h => ⟨h, rfl⟩⟩
  | one h => exact micro_total h
  | two rid y a p q v v' hop hv hc h2 => 
    have := micro_total (s := { s with votes := upd s.votes rid (some v') }) (h2 (.cancelled 0))
    exact this

theorem total_le (s : State) (hs : s.totalIngresses = 0) (steps : List Step) :
    (run refOf s steps).totalIngresses ≤ steps.length := by
  induction steps using List.reverseRecOn with
  | nil => simp [run, hs]
  | append_singleton steps op ih =>
    rw [run_snoc, List.length_append]
    rcases step_total (refOf := refOf) (run refOf s steps) op with h | ⟨h, _⟩
    · rw [h]
      have : wrapInc64 (run refOf s steps).totalIngresses ≤ (run refOf s steps).totalIngresses + 1 := by
        unfold wrapInc64; exact Nat.mod_le _ _
      simp only [List.length_singleton]; omega
    · rw [h]; omega

/-- Between two moments of a short enough history with the same ingress counter, if nothing was pending at the first one, the next
block to process is the same. -/
theorem idle_run (s : State) (hs : s.totalIngresses = 0) (pre rest : List Step) (hl : (pre ++ rest).length < 2 ^ 64) :
    (run refOf s pre).totalIngresses ≤ (run refOf s (pre ++ rest)).totalIngresses ∧
    ((run refOf s (pre ++ rest)).totalIngresses = (run refOf s pre).totalIngresses → (∀ r, (run refOf s pre).pending r = none) →
      (∀ r, (run refOf s (pre ++ rest)).pending r = none) ∧
      (run refOf s (pre ++ rest)).nextBlock = (run refOf s pre).nextBlock) := by
  induction rest using List.reverseRecOn with
  | nil => simp only [List.append_nil]; exact ⟨Nat.le_refl _, fun _ h => ⟨h, trivial⟩⟩
  | append_singleton rest op ih =>
    have hl' : (pre ++ rest).length < 2 ^ 64 := by simp only [List.length_append] at hl ⊢; omega
    obtain ⟨h1, h2⟩ := ih hl'
    rw [← List.append_assoc, run_snoc]
    have hb := total_le (refOf := refOf) s hs (pre ++ rest)
    rcases step_total (refOf := refOf) (run refOf s (pre ++ rest)) op with h | ⟨h, h3⟩
    · have hw : wrapInc64 (run refOf s (pre ++ rest)).totalIngresses = (run refOf s (pre ++ rest)).totalIngresses + 1 := by
        unfold wrapInc64
        apply Nat.mod_eq_of_lt
        simp only [List.length_append, List.length_singleton] at hl hb ⊢
        simp only [pow64]
        omega
      rw [h, hw]
      exact ⟨by omega, fun h => by omega⟩
    · rw [h]
      refine ⟨h1, fun he hp => ?_⟩
      obtain ⟨a, b⟩ := h2 he hp
      obtain ⟨c, d⟩ := h3 a
      exact ⟨c, d.trans b⟩

/-- In a short enough history no voting session has an ingress number above the counter. -/
theorem votes_bound (s : State) (hs : s.totalIngresses = 0) (hv : ∀ rid, s.votes rid = none) (steps : List Step)
    (hl : steps.length < 2 ^ 64) (rid : RootId) (v : Avn.Session) (h : (run refOf s steps).votes rid = some v) :
    rid.ingress ≤ (run refOf s steps).totalIngresses := by
  induction steps using List.reverseRecOn generalizing rid v with
  | nil => simp [run, hv] at h
  | append_singleton steps op ih =>
    have hl' : steps.length < 2 ^ 64 := by simp only [List.length_append] at hl; omega
    have hmono := (idle_run (refOf := refOf) s hs steps [op] hl).1
    rw [run_snoc] at h hmono ⊢
    rcases view_votes (step_view (refOf := refOf) (run refOf s steps) op) with e | ⟨b, hh, k, who, ve, e1, e2⟩ |
        ⟨r, voter, ap, p, q, w, w', e1, e2, e3, e4⟩
    · rw [e] at h; exact Nat.le_trans (ih hl' rid v h) hmono
    · rw [e2] at h hmono ⊢
      simp only [recordEffects, upd_apply] at h hmono ⊢
      by_cases hr : rid = ⟨⟨(run refOf s steps).nextBlock, b⟩, k⟩
      · subst hr; exact Nat.le_refl _
      · rw [if_neg hr] at h; exact Nat.le_trans (ih hl' rid v h) hmono
    · rw [e4, upd_apply] at h
      by_cases hr : rid = r
      · subst hr; exact Nat.le_trans (ih hl' rid w e2) hmono
      · rw [if_neg hr] at h; exact Nat.le_trans (ih hl' rid v h) hmono

end Verif.Summary

namespace Verif.SummaryWorker

open Verif Verif.Summary

variable {H : Bytes → Bytes}

/-! ### The root hash a node computes -/

/-- The extrinsics of blocks `first, …, first + count - 1` of the chain `F`. -/
def chainLeavesFrom (F : Nat → List Bytes) (first count : Nat) : List Bytes := (List.range' first count).flatMap F

theorem leavesFrom_some {F : Nat → List Bytes} {c : Client}
    (hc : ∀ n xs, c.block n = some xs → n ≤ c.finalised → xs = F n) :
    ∀ (count first : Nat) (ls : List Bytes), leavesFrom c first count = some ls → ls = chainLeavesFrom F first count
  | 0, first, ls, h => by simp only [leavesFrom] at h; cases h; simp [chainLeavesFrom]
  | count + 1, first, ls, h => by
    simp only [leavesFrom] at h
    cases h1 : blockLeaves c first with
    | none => rw [h1] at h; simp at h
    | some xs =>
      rw [h1] at h
      dsimp only at h
      cases h2 : leavesFrom c (first + 1) count with
      | none => rw [h2] at h; simp at h
      | some r =>
        rw [h2] at h
        cases h
        have h3 := leavesFrom_some hc count (first + 1) r h2
        have h4 : xs = F first := by
          unfold blockLeaves at h1
          cases h5 : c.block first with
          | none => rw [h5] at h1; simp at h1
          | some ys =>
            rw [h5] at h1
            dsimp only at h1
            by_cases h6 : c.finalised < first
            · rw [if_pos h6] at h1; simp at h1
            · rw [if_neg h6] at h1; cases h1; exact hc _ _ h5 (by omega)
        rw [h3, h4, chainLeavesFrom, chainLeavesFrom, List.range'_succ]
        simp

theorem leavesFrom_all {c : Client} : ∀ (count first : Nat),
    (∀ n, first ≤ n → n < first + count → n ≤ c.finalised ∧ (c.block n).isSome = true) → ∃ ls, leavesFrom c first count = some ls
  | 0, first, _ => ⟨[], rfl⟩
  | count + 1, first, h => by
    obtain ⟨r, hr⟩ := leavesFrom_all count (first + 1) (fun n h1 h2 => h n (by omega) (by omega))
    obtain ⟨h1, h2⟩ := h first (by omega) (by omega)
    obtain ⟨xs, h3⟩ := Option.isSome_iff_exists.1 h2
    refine ⟨xs ++ r, ?_⟩
    simp only [leavesFrom, blockLeaves, h3, if_neg (Nat.not_lt.2 h1), hr]

theorem treeRoot_some (H : Bytes → Bytes) (h32 : ∀ x, (H x).length = 32) (ls : List Bytes) (hne : ls ≠ []) :
    ∃ root, Merkle.treeRoot H ls = some root ∧ root.length = 32 := by
  obtain ⟨x, t, rfl⟩ := List.exists_cons_of_ne_nil hne
  have h := Merkle.levelPath_root H (H x) _ ((x :: t).map H) (H x) [] rfl (by simp) rfl
  refine ⟨_, by unfold Merkle.treeRoot; rw [h], ?_⟩
  have := Merkle.processLevel_expl H _ ((x :: t).map H) rfl (Merkle.climb H (H x) (Merkle.levelPath H (H x) ((x :: t).map H) []))
    (by rw [h]; simp)
  refine Merkle.Expl.length32 h32 ?_ this
  intro v hv
  obtain ⟨y, _, rfl⟩ := List.mem_map.1 hv
  exact h32 y

theorem beVal_zeros : beVal (List.replicate 32 0) = 0 := by decide

theorem computeRoot_some {F : Nat → List Bytes} {c : Client}
    (hc : ∀ n xs, c.block n = some xs → n ≤ c.finalised → xs = F n) {a b h : Nat} (he : computeRoot H c a b = some h) :
    (chainLeavesFrom F a (b + 1 - a) = [] ∧ h = 0) ∨
    (chainLeavesFrom F a (b + 1 - a) ≠ [] ∧ ∃ root, Merkle.treeRoot H (chainLeavesFrom F a (b + 1 - a)) = some root ∧ h = beVal root) := by
  unfold computeRoot rootHashAnswer rangeLeaves at he
  cases h1 : leavesFrom c a (b + 1 - a) with
  | none => rw [h1] at he; simp at he
  | some ls =>
    rw [h1] at he
    have h2 := leavesFrom_some hc _ _ _ h1
    rw [← h2]
    dsimp only at he
    by_cases h3 : ls = []
    · rw [if_pos h3] at he
      left
      refine ⟨h3, ?_⟩
      unfold validateResponse at he
      dsimp only at he
      rw [if_neg (by rw [Calldata.hexEncode_length]; simp), Calldata.hexDecode_encode] at he
      dsimp only at he
      rw [beVal_zeros] at he
      cases he; rfl
    · rw [if_neg h3] at he
      right
      refine ⟨h3, ?_⟩
      cases h4 : Merkle.treeRoot H ls with
      | none => rw [h4] at he; simp at he
      | some root =>
        rw [h4] at he
        refine ⟨root, rfl, ?_⟩
        dsimp only at he
        unfold validateResponse at he
        by_cases h5 : (Calldata.hexEncode root).length ≠ 64
        · rw [if_pos h5] at he; simp at he
        · rw [if_neg h5, Calldata.hexDecode_encode] at he
          dsimp only at he
          cases he; rfl

theorem computeRoot_total (h32 : ∀ x, (H x).length = 32) {c : Client} {a b : Nat}
    (hc : ∀ n, a ≤ n → n ≤ b → n ≤ c.finalised ∧ (c.block n).isSome = true) : ∃ h, computeRoot H c a b = some h := by
  obtain ⟨ls, h1⟩ := leavesFrom_all (c := c) (b + 1 - a) a (fun n h1 h2 => hc n h1 (by omega))
  unfold computeRoot rootHashAnswer rangeLeaves
  rw [h1]
  dsimp only
  by_cases h2 : ls = []
  · rw [if_pos h2]
    exact ⟨_, by unfold validateResponse; dsimp only; rw [if_neg (by rw [Calldata.hexEncode_length]; simp), Calldata.hexDecode_encode]⟩
  · rw [if_neg h2]
    obtain ⟨root, h3, h4⟩ := treeRoot_some H h32 ls h2
    rw [h3]
    exact ⟨_, by unfold validateResponse; dsimp only; rw [if_neg (by rw [Calldata.hexEncode_length, h4]; simp), Calldata.hexDecode_encode]⟩

/-! ### What a run submits -/

theorem workerRun_mem {nd : Node} {s : State} {tx : Tx} (h : tx ∈ workerRun H nd s) :
    Avn.isValidator s.validators nd.me = true ∧
    (tx ∈ advanceIfRequired nd s ∨ tx ∈ proposeIfRequired H nd s ∨ tx ∈ voteIfRequired H nd s ∨ tx ∈ endIfRequired nd s ∨
      tx ∈ challengeIfRequired nd s) := by
  unfold workerRun at h
  by_cases h1 : Avn.isValidator s.validators nd.me = false
  · rw [if_pos h1] at h; simp at h
  · rw [if_neg h1] at h
    refine ⟨by simpa using h1, ?_⟩
    simpa [or_assoc] using h

theorem advance_mem {nd : Node} {s : State} {tx : Tx} (h : tx ∈ advanceIfRequired nd s) :
    tx = .advance ∧ s.slotValidator = some nd.me ∧ s.nextSlotAt ≤ s.block := by
  unfold advanceIfRequired at h
  cases h1 : s.slotValidator with
  | none => rw [h1] at h; simp at h
  | some v =>
    rw [h1] at h
    dsimp only at h
    by_cases h2 : nd.me = v ∧ s.nextSlotAt ≤ s.block
    · rw [if_pos h2] at h
      by_cases h3 : nd.lockedAdvance s.currentSlot = true
      · rw [if_pos h3] at h; simp at h
      · rw [if_neg h3] at h
        refine ⟨by simpa using h, by rw [h2.1], h2.2⟩
    · rw [if_neg h2] at h; simp at h

theorem propose_mem {nd : Node} {s : State} {tx : Tx} (h : tx ∈ proposeIfRequired H nd s) :
    ∃ last hash, tx = .record last hash (wrapInc64 s.totalIngresses) ∧ targetBlock s = .ok last ∧
      computeRoot H nd.client s.nextBlock last = some hash ∧ s.slotValidator = some nd.me ∧ s.block < s.nextSlotAt ∧
      last + nd.minAge < s.block ∧ neitherPendingNorApproved s ⟨s.nextBlock, last⟩ = true := by
  unfold proposeIfRequired at h
  cases h1 : targetBlock s with
  | error e => rw [h1] at h; simp at h
  | ok last =>
    rw [h1] at h
    dsimp only at h
    by_cases h2 : canProcess nd s last = true
    · rw [if_pos h2] at h
      cases h3 : computeRoot H nd.client s.nextBlock last with
      | none => rw [h3] at h; simp at h
      | some hash =>
        rw [h3] at h
        refine ⟨last, hash, by simpa using h, rfl, h3, ?_⟩
        unfold canProcess at h2
        by_cases h4 : nd.lockedCreate last = true
        · rw [if_pos h4] at h2; simp at h2
        · rw [if_neg h4] at h2
          unfold addBlocks at h2
          by_cases h5 : last + nd.minAge < pow32
          · rw [if_pos h5] at h2
            simp only [Bool.and_eq_true, decide_eq_true_eq] at h2
            obtain ⟨⟨⟨a, b⟩, c⟩, d⟩ := h2
            exact ⟨a, b, c, d⟩
          · rw [if_neg h5] at h2; simp at h2
    · rw [if_neg h2] at h; simp at h

theorem voteLoop_mem {nd : Node} {s : State} {tx : Tx} : ∀ {l : List RootId}, tx ∈ voteLoop H nd s l →
    ∃ rid ∈ l, ∃ hash d, tx = .vote rid (decide (hash = d.rootHash)) ∧
      computeRoot H nd.client rid.range.fromBlock rid.range.toBlock = some hash ∧ getRoot s.roots rid = some d
  | [], h => by simp [voteLoop] at h
  | rid :: l, h => by
    have hrest : tx ∈ voteLoop H nd s l → _ := fun h => voteLoop_mem (l := l) h
    have lift : (∃ r ∈ l, ∃ hash d, tx = .vote r (decide (hash = d.rootHash)) ∧
        computeRoot H nd.client r.range.fromBlock r.range.toBlock = some hash ∧ getRoot s.roots r = some d) →
        ∃ r ∈ rid :: l, ∃ hash d, tx = .vote r (decide (hash = d.rootHash)) ∧
        computeRoot H nd.client r.range.fromBlock r.range.toBlock = some hash ∧ getRoot s.roots r = some d := by
      rintro ⟨r, h1, h2⟩; exact ⟨r, by simp [h1], h2⟩
    unfold voteLoop at h
    cases h1 : computeRoot H nd.client rid.range.fromBlock rid.range.toBlock with
    | none => rw [h1] at h; exact lift (hrest h)
    | some hash =>
      rw [h1] at h
      dsimp only at h
      cases h2 : getRoot s.roots rid with
      | none => rw [h2] at h; exact lift (hrest h)
      | some d =>
        rw [h2] at h
        dsimp only at h
        by_cases h3 : nd.poolTakes rid = true
        · rw [if_pos h3] at h
          exact ⟨rid, by simp, hash, d, by simpa using h, h1, h2⟩
        · rw [if_neg h3] at h; exact lift (hrest h)

theorem vote_mem {nd : Node} {s : State} {tx : Tx} (h : tx ∈ voteIfRequired H nd s) :
    ∃ rid hash d, tx = .vote rid (decide (hash = d.rootHash)) ∧ canVoteOn nd s rid = true ∧
      computeRoot H nd.client rid.range.fromBlock rid.range.toBlock = some hash ∧ getRoot s.roots rid = some d := by
  obtain ⟨rid, h1, hash, d, h2, h3, h4⟩ := voteLoop_mem h
  exact ⟨rid, hash, d, h2, (List.mem_filter.1 (List.mem_of_mem_take h1)).2, h3, h4⟩

theorem endLoop_mem {s : State} {tx : Tx} : ∀ {l : List RootId}, tx ∈ endLoop s l → ∃ rid ∈ l, tx = .endVoting rid
  | [], h => by simp [endLoop] at h
  | rid :: l, h => by
    unfold endLoop at h
    cases h1 : s.votes rid with
    | none => rw [h1] at h; simp at h
    | some v =>
      rw [h1] at h
      rcases List.mem_cons.1 h with h | h
      · exact ⟨rid, by simp, h⟩
      · obtain ⟨r, h2, h3⟩ := endLoop_mem h; exact ⟨r, by simp [h2], h3⟩

theorem end_mem {nd : Node} {s : State} {tx : Tx} (h : tx ∈ endIfRequired nd s) :
    ∃ rid, tx = .endVoting rid ∧ rid ∈ pendingIds nd s ∧ votingEnd s rid < s.block := by
  obtain ⟨rid, h1, h2⟩ := endLoop_mem h
  obtain ⟨h3, h4⟩ := List.mem_filter.1 (List.mem_of_mem_take h1)
  exact ⟨rid, h2, h3, by simpa using h4⟩

theorem challenge_mem {nd : Node} {s : State} {tx : Tx} (h : tx ∈ challengeIfRequired nd s) :
    ∃ v, tx = .challenge s.currentSlot v ∧ s.slotValidator = some v ∧ Avn.primaryForBlock s.validators s.block = .ok nd.me ∧
      graceElapsed s = true := by
  unfold challengeIfRequired at h
  cases h1 : s.slotValidator with
  | none => rw [h1] at h; simp at h
  | some v =>
    rw [h1] at h
    dsimp only at h
    by_cases h2 : nd.lockedChallenge s.currentSlot = true
    · rw [if_pos h2] at h; simp at h
    · rw [if_neg h2] at h
      cases h3 : Avn.primaryForBlock s.validators s.block with
      | error e => rw [h3] at h; simp at h
      | ok p =>
        rw [h3] at h
        dsimp only at h
        by_cases h4 : p = nd.me ∧ graceElapsed s = true
        · rw [if_pos h4] at h
          exact ⟨v, by simpa using h, rfl, by rw [h4.1], h4.2⟩
        · rw [if_neg h4] at h; simp at h

theorem record_of_run {nd : Node} {s : State} {last hash k : Nat} (h : Tx.record last hash k ∈ workerRun H nd s) :
    Tx.record last hash k ∈ proposeIfRequired H nd s := by
  rcases (workerRun_mem h).2 with h | h | h | h | h
  · have := (advance_mem h).1; simp at this
  · exact h
  · obtain ⟨_, _, _, h, _⟩ := vote_mem h; simp at h
  · obtain ⟨_, h, _⟩ := end_mem h; simp at h
  · obtain ⟨_, h, _⟩ := challenge_mem h; simp at h

theorem vote_of_run {nd : Node} {s : State} {rid : RootId} {a : Bool} (h : Tx.vote rid a ∈ workerRun H nd s) :
    Tx.vote rid a ∈ voteIfRequired H nd s := by
  rcases (workerRun_mem h).2 with h | h | h | h | h
  · have := (advance_mem h).1; simp at this
  · obtain ⟨_, _, h, _⟩ := propose_mem h; simp at h
  · exact h
  · obtain ⟨_, h, _⟩ := end_mem h; simp at h
  · obtain ⟨_, h, _⟩ := challenge_mem h; simp at h

end Verif.SummaryWorker
