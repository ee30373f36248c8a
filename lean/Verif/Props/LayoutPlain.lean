import Verif.Lemmas.Extremum

/-! # Sizes, positions and removed axes in plain terms

Many statements speak about an array through `prodShape`, `ravel` and `npDelete`. Here is what these
are, without the model: the product of the lengths, the row-major position, the list without the
entries of the axes. -/

namespace OM

/-- **C35**: the size is the product of the lengths; a multi-index stands at the sum of its components
times the product of the later lengths; the next value of the last component is the next position. -/
theorem c35_layout (s j : List Nat) (hl : j.length = s.length) :
    prodShape s = s.prod ∧
    ravel s j = ((List.range s.length).map fun p => j.getD p 0 * (s.drop (p + 1)).prod).sum ∧
    ∀ n k, ravel (s ++ [n]) (j ++ [k + 1]) = ravel (s ++ [n]) (j ++ [k]) + 1 := by
  refine ⟨rfl, ?_, ?_⟩
  · induction s generalizing j with
    | nil => cases j <;> simp [ravel]
    | cons n s ih =>
      cases j with
      | nil => simp at hl
      | cons i j =>
        simp only [List.length_cons, Nat.add_right_cancel_iff] at hl
        simp only [ravel, ih j hl, List.length_cons, List.range_succ_eq_map, List.map_cons,
          List.map_map, List.sum_cons]
        simp [Function.comp_def, prodShape]
  · intro n k
    induction s generalizing j with
    | nil =>
      cases j with
      | nil => simp [ravel, prodShape]
      | cons i j => simp at hl
    | cons m s ih =>
      cases j with
      | nil => simp at hl
      | cons i j =>
        simp only [List.length_cons, Nat.add_right_cancel_iff] at hl
        simp only [List.cons_append, ravel, ih j hl]
        omega

/-- **C35**: removing one axis; removing none; removing all. -/
theorem c35_removed {α : Type} (l : List α) :
    (∀ a, npDelete [a] l = l.take a ++ l.drop (a + 1)) ∧ npDelete [] l = l ∧
    npDelete (List.range l.length) l = [] := by
  refine ⟨fun a => ?_, ?_, ?_⟩
  · exact npDelete_single l a
  · simp [npDelete]
  · simp only [npDelete, List.map_eq_nil_iff, List.filter_eq_nil_iff]
    rintro ⟨x, k⟩ h
    have := List.mem_zipIdx h
    simp at this ⊢
    omega

/-- Entry `(1, 2)` of a matrix of 3 rows and 4 columns is the seventh. -/
example : ravel [3, 4] [1, 2] = 6 ∧ npDelete [1] [3, 4, 5] = [3, 5] := by decide

end OM
