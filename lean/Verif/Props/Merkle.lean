import Verif.Model.Merkle

/-!
# C69, C70: Merkle paths

`verifies H root leaf path` is what a verifier (the Ethereum contract) computes: hash the leaf, then hash the sorted
concatenation with every sibling in turn, and compare with the root.
-/

namespace Verif.Merkle

variable (H : Bytes → Bytes)

/-- Specification of the verifier. -/
def climb (start : Bytes) (path : List Bytes) : Bytes := path.foldl (fun acc sib => H (sortConcat acc sib)) start

/-- The verifier accepts. -/
def verifies (root leaf : Bytes) (path : List Bytes) : Prop := climb H (H leaf) path = root

theorem sortConcat_comm (a b : Bytes) : sortConcat a b = sortConcat b a := by
  unfold sortConcat
  by_cases h1 : a ≤ b
  · rw [if_pos h1]
    by_cases h2 : b ≤ a
    · rw [if_pos h2, List.le_antisymm h1 h2]
    · rw [if_neg h2]
  · rw [if_neg h1]
    rcases List.le_total a b with h | h
    · exact absurd h h1
    · rw [if_pos h]

theorem climb_append (s : Bytes) (p q : List Bytes) : climb H s (p ++ q) = climb H (climb H s p) q := by
  simp [climb]

theorem trackPairs_climb (s : Bytes) : ∀ (nodes : List Bytes) (cur : Bytes) (path : List Bytes), climb H s path = cur →
    climb H s (trackPairs H cur path nodes).2 = (trackPairs H cur path nodes).1
  | a :: b :: t, cur, path, h => by
    unfold trackPairs
    by_cases h1 : cur = a
    · rw [if_pos h1]
      apply trackPairs_climb s t
      rw [climb_append, h, h1]; rfl
    · rw [if_neg h1]
      by_cases h2 : cur = b
      · rw [if_pos h2]
        apply trackPairs_climb s t
        rw [climb_append, h, h2, sortConcat_comm]; rfl
      · rw [if_neg h2]; exact trackPairs_climb s t cur path h
  | [_], _, _, h => h
  | [], _, _, h => h

/-- The tracked node stays on the next level. -/
theorem trackPairs_mem : ∀ (nodes : List Bytes) (cur : Bytes) (path : List Bytes) (extra : List Bytes),
    cur ∈ nodes ∨ cur ∈ extra →
    (trackPairs H cur path nodes).1 ∈ extra ++ pairUp H nodes
  | a :: b :: t, cur, path, extra, h => by
    unfold trackPairs pairUp
    have rest : ∀ c p, c ∈ t ∨ c ∈ extra ++ [H (sortConcat a b)] →
        (trackPairs H c p t).1 ∈ extra ++ H (sortConcat a b) :: pairUp H t := by
      intro c p hc
      have := trackPairs_mem t c p (extra ++ [H (sortConcat a b)]) hc
      simpa using this
    by_cases h1 : cur = a
    · rw [if_pos h1]; exact rest _ _ (.inr (by simp))
    · rw [if_neg h1]
      by_cases h2 : cur = b
      · rw [if_pos h2]; exact rest _ _ (.inr (by simp))
      · rw [if_neg h2]
        apply rest
        rcases h with h | h
        · simp only [List.mem_cons, h1, h2, false_or] at h; exact .inl h
        · exact .inr (by simp [h])
  | [a], cur, path, extra, h => by
    simp only [trackPairs, pairUp, List.mem_append]
    exact h.symm
  | [], cur, path, extra, h => by
    simp only [trackPairs, pairUp, List.append_nil]
    simpa using h

theorem levelPath_root (s : Bytes) : ∀ (n : Nat) (nodes : List Bytes) (cur : Bytes) (path : List Bytes),
    nodes.length = n → cur ∈ nodes → climb H s path = cur →
    processLevel H nodes = [climb H s (levelPath H cur nodes path)] := by
  intro n
  induction n using Nat.strongRecOn with
  | ind n ih =>
    intro nodes cur path hn hmem hc
    have hm := trackPairs_mem H nodes cur path [] (.inl hmem)
    rw [List.nil_append] at hm
    have hcl := trackPairs_climb H s nodes cur path hc
    have hlen := pairUp_length H nodes
    unfold processLevel levelPath
    by_cases h : 1 < (pairUp H nodes).length
    · rw [dif_pos h, dif_pos h]
      exact ih _ (by omega) _ _ _ rfl hm hcl
    · rw [dif_neg h, dif_neg h, hcl]
      have h1 : (pairUp H nodes).length = 1 := by
        have := List.length_pos_of_mem hm; omega
      obtain ⟨x, hx⟩ := List.length_eq_one_iff.1 h1
      rw [hx] at hm ⊢
      rw [List.mem_singleton.1 hm]

/-- C69, completeness: for every hash function, every leaf list and every nonempty leaf in it, a root and a path are
generated, and the verifier accepts the path. -/
theorem C69_paths_verify (leaf : Bytes) (leaves : List Bytes) (hm : leaf ∈ leaves) (hne : leaf ≠ []) :
    ∃ root path, treeRoot H leaves = some root ∧ merklePath H leaf leaves = some path ∧ verifies H root leaf path := by
  have h := levelPath_root H (H leaf) _ (leaves.map H) (H leaf) [] rfl (List.mem_map_of_mem hm) rfl
  refine ⟨climb H (H leaf) (levelPath H (H leaf) (leaves.map H) []), levelPath H (H leaf) (leaves.map H) [], ?_, ?_, rfl⟩
  · unfold treeRoot; rw [h]
  · unfold merklePath
    rw [if_neg hne, if_neg (List.ne_nil_of_mem hm)]

/-! ### Soundness -/

/-- The inner nodes' preimages of one level. -/
def pairInputs : List Bytes → List Bytes
  | a :: b :: t => sortConcat a b :: pairInputs t
  | _ => []

/-- Everything hashed above the leaves when the root is computed. -/
def innerInputs (nodes : List Bytes) : List Bytes :=
  if h : 1 < (pairUp H nodes).length then pairInputs nodes ++ innerInputs (pairUp H nodes) else pairInputs nodes
termination_by nodes.length
decreasing_by have := pairUp_length H nodes; omega

/-- Everything hashed when the root of `leaves` is computed: the leaves, then the concatenated pairs. -/
def treeInputs (leaves : List Bytes) : List Bytes := leaves ++ innerInputs H (leaves.map H)

/-- Everything hashed by the verifier. -/
def pathInputs (start : Bytes) : List Bytes → List Bytes
  | [] => []
  | sib :: t => sortConcat start sib :: pathInputs (H (sortConcat start sib)) t

/-- Everything hashed by the verifier, including the leaf. -/
def verifierInputs (leaf : Bytes) (path : List Bytes) : List Bytes := leaf :: pathInputs H (H leaf) path

/-- A collision between the tree's inputs and the verifier's inputs. -/
def Collision (leaf : Bytes) (path : List Bytes) (leaves : List Bytes) : Prop :=
  ∃ x ∈ treeInputs H leaves, ∃ y ∈ verifierInputs H leaf path, x ≠ y ∧ H x = H y

theorem pairUp_cases : ∀ (nodes : List Bytes) (v : Bytes), v ∈ pairUp H nodes →
    v ∈ nodes ∨ ∃ a ∈ nodes, ∃ b ∈ nodes, sortConcat a b ∈ pairInputs nodes ∧ v = H (sortConcat a b)
  | a :: b :: t, v, h => by
    simp only [pairUp, List.mem_cons] at h
    rcases h with rfl | h
    · exact .inr ⟨a, by simp, b, by simp, by simp [pairInputs], rfl⟩
    · rcases pairUp_cases t v h with h | ⟨x, hx, y, hy, hi, e⟩
      · exact .inl (by simp [h])
      · exact .inr ⟨x, by simp [hx], y, by simp [hy], by simp [pairInputs, hi], e⟩
  | [a], v, h => by simp [pairUp] at h; simp [h]
  | [], v, h => by simp [pairUp] at h

/-- A set of values is explained by a set of inputs `I` over a set of base nodes: each is a base node or the hash of a
sorted pair of explained values, the pair being in `I`. -/
inductive Expl (base I : List Bytes) : Bytes → Prop
  | base (v : Bytes) (h : v ∈ base) : Expl base I v
  | pair (a b : Bytes) (ha : Expl base I a) (hb : Expl base I b) (hi : sortConcat a b ∈ I) : Expl base I (H (sortConcat a b))

theorem Expl.mono {H : Bytes → Bytes} {base I J : List Bytes} (hs : ∀ x ∈ I, x ∈ J) {v : Bytes} (h : Expl H base I v) :
    Expl H base J v := by
  induction h with
  | base v h => exact .base v h
  | pair a b _ _ hi iha ihb => exact .pair a b iha ihb (hs _ hi)

theorem Expl.trans {H : Bytes → Bytes} {base base' I : List Bytes} (hs : ∀ x ∈ base', Expl H base I x) {v : Bytes}
    (h : Expl H base' I v) : Expl H base I v := by
  induction h with
  | base v h => exact hs v h
  | pair a b _ _ hi iha ihb => exact .pair a b iha ihb hi

theorem processLevel_expl : ∀ (n : Nat) (nodes : List Bytes), nodes.length = n →
    ∀ v ∈ processLevel H nodes, Expl H nodes (innerInputs H nodes) v := by
  intro n
  induction n using Nat.strongRecOn with
  | ind n ih =>
    intro nodes hn v hv
    have hlen := pairUp_length H nodes
    unfold processLevel at hv
    have one : ∀ J : List Bytes, (∀ x ∈ pairInputs nodes, x ∈ J) → ∀ w ∈ pairUp H nodes, Expl H nodes J w := by
      intro J hJ w hw
      rcases pairUp_cases H nodes w hw with h | ⟨a, ha, b, hb, hi, rfl⟩
      · exact .base _ h
      · exact .pair a b (.base _ ha) (.base _ hb) (hJ _ hi)
    unfold innerInputs
    by_cases h : 1 < (pairUp H nodes).length
    · rw [dif_pos h] at hv ⊢
      have hi := ih _ (by omega) (pairUp H nodes) rfl v hv
      exact (hi.mono (fun x hx => List.mem_append.2 (.inr hx))).trans
        (one _ (fun x hx => List.mem_append.2 (.inl hx)))
    · rw [dif_neg h] at hv ⊢
      exact one _ (fun x hx => hx) v hv

theorem sortConcat_length {a b : Bytes} : (sortConcat a b).length = a.length + b.length := by
  unfold sortConcat; split <;> simp <;> omega

theorem sortConcat_inj {a b c d : Bytes} (ha : a.length = 32) (hb : b.length = 32) (hc : c.length = 32) (hd : d.length = 32)
    (h : sortConcat a b = sortConcat c d) : a = c ∨ a = d := by
  unfold sortConcat at h
  split at h <;> split at h
  · exact .inl (List.append_inj h (by omega)).1
  · exact .inr (List.append_inj h (by omega)).1
  · exact .inr (List.append_inj h (by omega)).2
  · exact .inl (List.append_inj h (by omega)).2

theorem Expl.length32 {H : Bytes → Bytes} (h32 : ∀ x, (H x).length = 32) {base I : List Bytes}
    (hb : ∀ x ∈ base, x.length = 32) {v : Bytes} (h : Expl H base I v) : v.length = 32 := by
  cases h with
  | base v h => exact hb v h
  | pair a b _ _ _ => exact h32 _

/-- Going down the path: a value from which an explained value is reached is explained itself, or there is a collision. -/
theorem climb_expl (h32 : ∀ x, (H x).length = 32) (leaves : List Bytes) (hl : ∀ d ∈ leaves, d.length ≠ 64)
    (path : List Bytes) (hp : ∀ s ∈ path, s.length = 32) (start : Bytes) (hs : start.length = 32)
    (h : Expl H (leaves.map H) (innerInputs H (leaves.map H)) (climb H start path)) :
    Expl H (leaves.map H) (innerInputs H (leaves.map H)) start ∨
      ∃ x ∈ treeInputs H leaves, ∃ y ∈ pathInputs H start path, x ≠ y ∧ H x = H y := by
  induction path generalizing start with
  | nil => exact .inl h
  | cons sib t ih =>
    have hsib : sib.length = 32 := hp sib (by simp)
    rcases ih (fun s hs => hp s (by simp [hs])) (H (sortConcat start sib)) (h32 _) h with h | ⟨x, hx, y, hy, r⟩
    · have hlen64 : (sortConcat start sib).length = 64 := by rw [sortConcat_length]; omega
      generalize hv : H (sortConcat start sib) = v at h
      cases h with
      | base v hm =>
        obtain ⟨d, hd, e⟩ := List.mem_map.1 hm
        refine .inr ⟨d, by simp [treeInputs, hd], sortConcat start sib, by simp [pathInputs], ?_, e.trans hv.symm⟩
        intro e'; exact hl d hd (e' ▸ hlen64)
      | pair a b ha hb hi =>
        by_cases e : sortConcat a b = sortConcat start sib
        · have h32' : ∀ x ∈ leaves.map H, x.length = 32 := by
            intro x hx; obtain ⟨d, _, rfl⟩ := List.mem_map.1 hx; exact h32 d
          rcases sortConcat_inj hs hsib (ha.length32 h32 h32') (hb.length32 h32 h32') e.symm with rfl | rfl
          · exact .inl ha
          · exact .inl hb
        · exact .inr ⟨sortConcat a b, by simp [treeInputs, hi], sortConcat start sib, by simp [pathInputs], e, hv.symm⟩
    · exact .inr ⟨x, hx, y, by simp [pathInputs, hy], r⟩

/-- C69, soundness: with 32 byte hashes and siblings, leaves that are not 64 bytes long and data that is not 64 bytes long,
an accepted path shows that the data is one of the leaves, or two of the strings that were hashed collide (one hashed
when building the tree, one by the verifier). -/
theorem C69_verified_data_is_a_leaf (h32 : ∀ x, (H x).length = 32) (leaves : List Bytes) (hl : ∀ d ∈ leaves, d.length ≠ 64)
    (root data : Bytes) (path : List Bytes) (hp : ∀ s ∈ path, s.length = 32) (hd : data.length ≠ 64)
    (hroot : treeRoot H leaves = some root) (h : verifies H root data path) :
    data ∈ leaves ∨ Collision H data path leaves := by
  have hr : processLevel H (leaves.map H) = [root] := by
    unfold treeRoot at hroot
    split at hroot
    · rename_i x hx; injection hroot with e; rw [hx, e]
    · cases hroot
  have he := processLevel_expl H _ (leaves.map H) rfl root (by rw [hr]; simp)
  have hv : climb H (H data) path = root := h
  rcases climb_expl H h32 leaves hl path hp (H data) (h32 _) (hv.symm ▸ he) with h | ⟨x, hx, y, hy, r⟩
  · generalize hw : H data = w at h
    cases h with
    | base w hm =>
      obtain ⟨d, hm, e⟩ := List.mem_map.1 hm
      by_cases hdd : d = data
      · exact .inl (hdd ▸ hm)
      · exact .inr ⟨d, by simp [treeInputs, hm], data, by simp [verifierInputs], hdd, e.trans hw.symm⟩
    | pair a b ha hb hi =>
      have h32' : ∀ x ∈ leaves.map H, x.length = 32 := by
        intro x hx; obtain ⟨d, _, rfl⟩ := List.mem_map.1 hx; exact h32 d
      refine .inr ⟨sortConcat a b, by simp [treeInputs, hi], data, by simp [verifierInputs], ?_, hw.symm⟩
      intro e
      apply hd
      rw [← e, sortConcat_length, ha.length32 h32 h32', hb.length32 h32 h32']
  · exact .inr ⟨x, hx, y, by simp [verifierInputs, hy], r⟩

/-- C70 is the soundness statement without its length conditions; this is the part that holds. Missing: data of 64
bytes, for which it is false (`C70_inner_node_verifies_as_leaf`), and lists with 64 byte leaves
(`C70_half_of_long_leaf_verifies`). -/
theorem C70_only_leaves_verify_partial (h32 : ∀ x, (H x).length = 32) (leaves : List Bytes) (hl : ∀ d ∈ leaves, d.length ≠ 64)
    (root data : Bytes) (path : List Bytes) (hp : ∀ s ∈ path, s.length = 32) (hd : data.length ≠ 64)
    (hroot : treeRoot H leaves = some root) (hnc : ¬ Collision H data path leaves) (h : verifies H root data path) :
    data ∈ leaves := by
  rcases C69_verified_data_is_a_leaf H h32 leaves hl root data path hp hd hroot h with h | h
  · exact h
  · exact absurd h hnc

/-- C70 is false: in every tree of two leaves of other than 64 bytes, with any hash function of 32 byte outputs, the
concatenation of the two leaf hashes is accepted as a leaf, although it is none. -/
theorem C70_inner_node_verifies_as_leaf (h32 : ∀ x, (H x).length = 32) (a b : Bytes) (ha : a.length ≠ 64) (hb : b.length ≠ 64) :
    ∃ root data, treeRoot H [a, b] = some root ∧ verifies H root data [] ∧ data ∉ [a, b] := by
  refine ⟨H (sortConcat (H a) (H b)), sortConcat (H a) (H b), ?_, rfl, ?_⟩
  · have : processLevel H [H a, H b] = [H (sortConcat (H a) (H b))] := by
      unfold processLevel
      rw [dif_neg (by simp [pairUp])]
      rfl
    unfold treeRoot
    rw [show [a, b].map H = [H a, H b] from rfl, this]
  · have hlen : (sortConcat (H a) (H b)).length = 64 := by rw [sortConcat_length, h32, h32]
    intro hm
    simp only [List.mem_cons, List.not_mem_nil, or_false] at hm
    rcases hm with e | e
    · exact ha (e ▸ hlen)
    · exact hb (e ▸ hlen)

/-- Conversely, a leaf of 64 bytes chosen as the sorted concatenation of `H x` and anything makes the string `x` verify, in
every tree consisting of this leaf. -/
theorem C70_half_of_long_leaf_verifies (x sib : Bytes) :
    ∃ root, treeRoot H [sortConcat (H x) sib] = some root ∧ verifies H root x [sib] := by
  refine ⟨H (sortConcat (H x) sib), ?_, rfl⟩
  have : processLevel H [H (sortConcat (H x) sib)] = [H (sortConcat (H x) sib)] := by
    unfold processLevel
    rw [dif_neg (by simp [pairUp])]
    rfl
  unfold treeRoot
  rw [show [sortConcat (H x) sib].map H = [H (sortConcat (H x) sib)] from rfl, this]

/-! ### A concrete tree -/

/-- A toy hash with 32 byte outputs: the first 31 bytes, padded, and the length. -/
def toy (x : Bytes) : Bytes := (x ++ List.replicate 31 0).take 31 ++ [UInt8.ofNat x.length]

theorem toy_length (x : Bytes) : (toy x).length = 32 := by simp [toy]

/-- Three leaves; the path of the third skips the first level. Hypotheses of completeness and soundness are met. -/
example : ([3] : Bytes) ∈ ([[1], [2], [3]] : List Bytes) ∧ ([3] : Bytes) ≠ [] ∧
    (∀ d ∈ ([[1], [2], [3]] : List Bytes), d.length ≠ 64) ∧
    merklePath toy [3] [[1], [2], [3]] = some [toy (sortConcat (toy [1]) (toy [2]))] ∧
    treeRoot toy [[1], [2], [3]] = some (toy (sortConcat (toy (sortConcat (toy [1]) (toy [2]))) (toy [3]))) := by
  refine ⟨by decide, by decide, by decide, ?_, ?_⟩
  · unfold merklePath
    rw [if_neg (by decide), if_neg (by decide)]
    unfold levelPath
    rw [dif_pos (by decide)]
    unfold levelPath
    rw [dif_neg (by decide +kernel)]
    decide +kernel
  · unfold treeRoot processLevel
    rw [dif_pos (by decide)]
    unfold processLevel
    rw [dif_neg (by decide +kernel)]
    decide +kernel

/-- No leaves: an error. -/
example : treeRoot toy [] = none := by
  unfold treeRoot processLevel
  rw [dif_neg (by decide)]
  rfl

end Verif.Merkle
