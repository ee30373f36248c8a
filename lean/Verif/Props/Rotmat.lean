import Verif.Model.Rotmat
import Verif.Lemmas.Gather
import Verif.Props.Product
import Mathlib.Analysis.SpecialFunctions.Trigonometric.Deriv
import Mathlib.LinearAlgebra.Matrix.Determinant.Basic

/-! # Rotation matrices (C40) -/

namespace OM
open Spec

theorem Rotmat.size_out (c : Rotmat) : prodShape c.outShape = c.size * 9 := by
  unfold Rotmat.outShape Rotmat.size
  by_cases h : c.shape = [1]
  · simp [h, prodShape]
  · rw [if_neg h, prodShape_append]; rfl

theorem rotIdx_cases {axis : String} {x : RotIdx} (h : rotIdx axis = some x) :
    (axis = "x" ∧ x = ⟨(1, 1), (2, 2), (1, 2), (2, 1), 0⟩) ∨
    (axis = "y" ∧ x = ⟨(0, 0), (2, 2), (2, 0), (0, 2), 1⟩) ∨
    (axis = "z" ∧ x = ⟨(0, 0), (1, 1), (0, 1), (1, 0), 2⟩) := by
  unfold rotIdx at h
  split at h
  · rename_i e; exact .inl ⟨e, (Option.some.inj h).symm⟩
  · split at h
    · rename_i e; exact .inr (.inl ⟨e, (Option.some.inj h).symm⟩)
    · split at h
      · rename_i e; exact .inr (.inr ⟨e, (Option.some.inj h).symm⟩)
      · cases h

/-- The rotation by an angle about a coordinate axis, counter-clockwise seen from the tip of the axis. -/
noncomputable def Spec.rotation (axis : String) (a : ℝ) : Matrix (Fin 3) (Fin 3) ℝ :=
  if axis = "x" then !![1, 0, 0; 0, Real.cos a, -Real.sin a; 0, Real.sin a, Real.cos a]
  else if axis = "y" then !![Real.cos a, 0, Real.sin a; 0, 1, 0; -Real.sin a, 0, Real.cos a]
  else !![Real.cos a, -Real.sin a, 0; Real.sin a, Real.cos a, 0; 0, 0, 1]

/-- The unit vector along a coordinate axis. -/
def Spec.axisVector (axis : String) : Fin 3 → ℝ :=
  if axis = "x" then ![1, 0, 0] else if axis = "y" then ![0, 1, 0] else ![0, 0, 1]

theorem matrix_eq {axis : String} {x : RotIdx} (h : rotIdx axis = some x) (a : ℝ) (i j : Fin 3) :
    x.matrix a (i, j) = rotation axis a i j := by
  rcases rotIdx_cases h with ⟨rfl, rfl⟩ | ⟨rfl, rfl⟩ | ⟨rfl, rfl⟩ <;> fin_cases i <;> fin_cases j <;>
    simp [RotIdx.matrix, setEntry, rotation]

theorem matrix_hasDerivAt {axis : String} {x : RotIdx} (h : rotIdx axis = some x) (a : ℝ) {i j : Nat}
    (hi : i < 3) (hj : j < 3) : HasDerivAt (fun a => x.matrix a (i, j)) (x.deriv a (i, j)) a := by
  have hc := Real.hasDerivAt_cos a
  have hs := Real.hasDerivAt_sin a
  have hns := hs.neg
  have h0 := hasDerivAt_const a (0 : ℝ)
  have h1 := hasDerivAt_const a (1 : ℝ)
  have hi' : i = 0 ∨ i = 1 ∨ i = 2 := by omega
  have hj' : j = 0 ∨ j = 1 ∨ j = 2 := by omega
  rcases rotIdx_cases h with ⟨_, rfl⟩ | ⟨_, rfl⟩ | ⟨_, rfl⟩ <;> rcases hi' with rfl | rfl | rfl <;>
    rcases hj' with rfl | rfl | rfl <;> simp only [RotIdx.matrix, RotIdx.deriv, setEntry] <;>
    norm_num <;> first | exact hc | exact hs | exact hns | exact h0 | exact h1

/-- **C40**, values: the nine entries belonging to each angle form the rotation matrix about the axis. -/
theorem c40_value {name axis : String} {shape : List Nat} {c : Rotmat}
    (ho : stdRotmat name shape axis = .ok c) (inp : String → Nat → ℝ) :
    c.outShape = (if shape = [1] then [3, 3] else shape ++ [3, 3]) ∧
    prodShape c.outShape = prodShape shape * 9 ∧
    ∀ k < prodShape shape, ∀ i j : Fin 3,
      c.compute inp (9 * k + 3 * i + j) = rotation axis (inp name k) i j := by
  unfold stdRotmat at ho
  cases hx : rotIdx axis with
  | none => rw [hx] at ho; cases ho
  | some x =>
    rw [hx] at ho
    obtain rfl := Except.ok.inj ho
    refine ⟨rfl, Rotmat.size_out _, ?_⟩
    intro k _ i j
    simp only [Rotmat.compute]
    have hi := i.2
    have hj := j.2
    have h1 : (9 * k + 3 * i.1 + j.1) / 9 = k := by omega
    have h2 : (9 * k + 3 * i.1 + j.1) % 9 / 3 = i.1 := by omega
    have h3 : (9 * k + 3 * i.1 + j.1) % 3 = j.1 := by omega
    rw [h1, h2, h3, matrix_eq hx]

/-- **C40**, rotations: orthogonal, determinant one, the axis is fixed, angle zero is the identity, and
angles add up. -/
theorem c40_rotation (axis : String) (a b : ℝ) :
    rotation axis a * (rotation axis a).transpose = 1 ∧
    (rotation axis a).transpose * rotation axis a = 1 ∧
    (rotation axis a).det = 1 ∧
    (rotation axis a).mulVec (axisVector axis) = axisVector axis ∧
    rotation axis 0 = 1 ∧
    rotation axis (a + b) = rotation axis a * rotation axis b := by
  have hcs := Real.cos_sq_add_sin_sq a
  have h1 : Real.cos a * Real.cos a + Real.sin a * Real.sin a = 1 := by nlinarith
  have h2 : Real.sin a * Real.sin a + Real.cos a * Real.cos a = 1 := by nlinarith
  have ha := Real.cos_add a b
  have hb := Real.sin_add a b
  refine ⟨?_, ?_, ?_, ?_, ?_, ?_⟩
  · unfold rotation
    split_ifs <;> ext i j <;> fin_cases i <;> fin_cases j <;>
      simp [Matrix.mul_apply, Fin.sum_univ_three] <;> linarith
  · unfold rotation
    split_ifs <;> ext i j <;> fin_cases i <;> fin_cases j <;>
      simp [Matrix.mul_apply, Fin.sum_univ_three] <;> linarith
  · unfold rotation
    split_ifs <;> rw [Matrix.det_fin_three] <;> simp <;> linarith
  · unfold rotation axisVector
    split_ifs <;> ext i <;> fin_cases i <;> simp [Matrix.mulVec, dotProduct, Fin.sum_univ_three]
  · unfold rotation
    split_ifs <;> ext i j <;> fin_cases i <;> fin_cases j <;> simp
  · unfold rotation
    split_ifs <;> ext i j <;> fin_cases i <;> fin_cases j <;>
      simp [Matrix.mul_apply, Fin.sum_univ_three, ha, hb] <;> ring

/-- **C40**, derivatives. -/
theorem c40_exact {name axis : String} {shape : List Nat} {c : Rotmat}
    (ho : stdRotmat name shape axis = .ok c) (inp : String → Nat → ℝ) :
    ExactPartials c.ins (prodShape c.outShape) c.compute (c.partials inp) inp := by
  unfold stdRotmat at ho
  cases hx : rotIdx axis with
  | none => rw [hx] at ho; cases ho
  | some x =>
    rw [hx] at ho
    obtain rfl := Except.ok.inj ho
    have hsz := Rotmat.size_out ⟨name, shape, x⟩
    refine gather_exact (fun r a => x.matrix a (r % 9 / 3, r % 3)) (fun r => r / 9)
      (fun r => x.deriv (inp name (r / 9)) (r % 9 / 3, r % 3)) ?_ ?_ ?_ ?_
    · intro r hr; rw [hsz] at hr; exact Nat.div_lt_of_lt_mul (by omega)
    · intro inp r _; rfl
    · unfold Rotmat.partials
      rw [hsz]
      congr 1
      have h1 := npRepeat_pairs (Rotmat.size ⟨name, shape, x⟩) 9 id
      rw [List.map_id] at h1
      rw [h1, range_pairs, List.map_map]
      apply List.map_congr_left
      intro t ht
      have := (mem_pairs.1 ht).2
      simp only [id, Function.comp_apply]
      omega
    · intro r _
      exact matrix_hasDerivAt hx _ (by omega) (by omega)

/-- Any other axis is refused (when the model is run). -/
theorem c40_axis (name axis : String) (shape : List Nat) :
    (∃ c, stdRotmat name shape axis = .ok c) ↔ axis = "x" ∨ axis = "y" ∨ axis = "z" := by
  unfold stdRotmat
  constructor
  · rintro ⟨c, h⟩
    cases hx : rotIdx axis with
    | none => rw [hx] at h; cases h
    | some x =>
      rcases rotIdx_cases hx with ⟨h, _⟩ | ⟨h, _⟩ | ⟨h, _⟩ <;> simp [h]
  · rintro (rfl | rfl | rfl)
    · exact ⟨_, rfl⟩
    · exact ⟨_, rfl⟩
    · exact ⟨_, rfl⟩

/-- The exception raised for any other axis. -/
theorem c40_refused {name axis : String} {shape : List Nat} (h : axis ≠ "x" ∧ axis ≠ "y" ∧ axis ≠ "z") :
    stdRotmat name shape axis = .error .attributeError := by
  have : ¬ ∃ c, stdRotmat name shape axis = .ok c := by
    rw [c40_axis]
    tauto
  unfold stdRotmat at *
  cases hx : rotIdx axis with
  | none => rfl
  | some x => rw [hx] at this; exact absurd ⟨_, rfl⟩ this

example : ∃ c, stdRotmat "a" [2, 5] "y" = .ok c ∧ c.outShape = [2, 5, 3, 3] := ⟨_, rfl, by decide⟩

example : ∃ c, stdRotmat "a" [1] "z" = .ok c ∧ c.outShape = [3, 3] := ⟨_, rfl, by decide⟩

end OM
