import Verif.Model.Avn
import Mathlib.Data.List.Rotate

namespace Verif.Avn

/-- `k` consecutive sender assignments, collecting the assigned accounts. -/
def runAdvance : Nat → State → Except Err (List Nat × State)
  | 0, s => .ok ([], s)
  | k + 1, s =>
    match advancePrimary s with
    | .error e => .error e
    | .ok (a, s') =>
      match runAdvance k s' with
      | .error e => .error e
      | .ok (as, s'') => .ok (a :: as, s'')

theorem advance_ok (s : State) (h0 : s.validators ≠ []) (hlt : s.validators.length < 256) :
    ∃ v, s.validators[(min (s.primaryIndex + 1) 255) % s.validators.length]? = some v ∧
      advancePrimary s = .ok (v.account,
        { s with primaryIndex := (min (s.primaryIndex + 1) 255) % s.validators.length }) := by
  have hpos : 0 < s.validators.length := List.length_pos_iff.mpr h0
  have hmod : s.validators.length % 256 = s.validators.length := Nat.mod_eq_of_lt hlt
  have hidx : (min (s.primaryIndex + 1) 255) % s.validators.length < s.validators.length :=
    Nat.mod_lt _ hpos
  refine ⟨s.validators[(min (s.primaryIndex + 1) 255) % s.validators.length],
    List.getElem?_eq_getElem hidx, ?_⟩
  have hne : s.validators.length ≠ 0 := by omega
  simp only [advancePrimary, h0, if_false, hmod, hne, List.getElem?_eq_getElem hidx]

/-- From an in-range index `i`, `k` assignments give validators `i+1, i+2, …` modulo the length. -/
theorem run_from (k : Nat) : ∀ (s : State), s.validators ≠ [] → s.validators.length < 256 →
    s.primaryIndex < s.validators.length →
    ∃ s', runAdvance k s = .ok ((List.range k).map (fun j =>
        ((s.validators[(s.primaryIndex + 1 + j) % s.validators.length]?).map Validator.account).getD 0), s')
      ∧ s'.validators = s.validators := by
  induction k with
  | zero => intro s _ _ _; exact ⟨s, by simp [runAdvance], rfl⟩
  | succ k ih =>
    intro s h0 hlt hi
    obtain ⟨v, hv, hadv⟩ := advance_ok s h0 hlt
    have hmin : min (s.primaryIndex + 1) 255 = s.primaryIndex + 1 := by omega
    rw [hmin] at hv hadv
    have hpos : 0 < s.validators.length := List.length_pos_iff.mpr h0
    obtain ⟨s', hs', hval⟩ := ih { s with primaryIndex := (s.primaryIndex + 1) % s.validators.length }
      h0 hlt (Nat.mod_lt _ hpos)
    refine ⟨s', ?_, hval⟩
    simp only [runAdvance, hadv, hs']
    rw [List.range_succ_eq_map, List.map_cons, List.map_map]
    simp only [Nat.add_zero, hv, Option.map_some, Option.getD_some]
    congr 3
    apply List.map_congr_left
    intro j _
    simp only [Function.comp]
    have : ((s.primaryIndex + 1) % s.validators.length + 1 + j) % s.validators.length =
        (s.primaryIndex + 1 + (j + 1)) % s.validators.length := by
      rw [Nat.add_assoc, Nat.mod_add_mod]; congr 1; omega
    rw [this]

theorem range_rotate (l : List Validator) (i : Nat) :
    (List.range l.length).map (fun j => ((l[(i + j) % l.length]?).map Validator.account).getD 0)
      = (l.rotate i).map Validator.account := by
  apply List.ext_getElem?
  intro j
  simp only [List.getElem?_map]
  by_cases hj : j < l.length
  · rw [List.getElem?_range hj, List.getElem?_rotate hj]
    have hm : (j + i) % l.length < l.length := Nat.mod_lt _ (by omega)
    rw [Nat.add_comm j i] at *
    simp [List.getElem?_eq_getElem hm]
  · have h1 : (List.range l.length)[j]? = none := by simp; omega
    have h2 : (l.rotate i)[j]? = none := by simp; omega
    simp [h1, h2]

end Verif.Avn
