import Verif.Model.Product
import Mathlib.Analysis.SpecialFunctions.Trigonometric.Basic

/-!
# Model of rotation matrices

`omtools/std/rotmat.py`, `omtools/comps/rotation_matrix_comp.py`.

Simplifications. Values are flat arrays of reals; initial values are left out. The exception raised by
`compute` if the axis is none of `x`, `y`, `z` (the attributes with the positions are missing) is raised
when the expression is made.
-/

namespace OM

/-- Where cosines, sines and the one are put: the attributes set in `setup`, rotation_matrix_comp.py
39-56. -/
structure RotIdx where
  cos1 : Nat × Nat
  cos2 : Nat × Nat
  sin1 : Nat × Nat
  sin2 : Nat × Nat
  one : Nat

def rotIdx (axis : String) : Option RotIdx :=
  if axis = "x" then some ⟨(1, 1), (2, 2), (1, 2), (2, 1), 0⟩
  else if axis = "y" then some ⟨(0, 0), (2, 2), (2, 0), (0, 2), 1⟩
  else if axis = "z" then some ⟨(0, 0), (1, 1), (0, 1), (1, 0), 2⟩
  else none

structure Rotmat where
  name : String
  shape : List Nat
  idx : RotIdx

/-- `rotmat`, std/rotmat.py 18-37. -/
def stdRotmat (name : String) (shape : List Nat) (axis : String) : Except PyErr Rotmat :=
  match rotIdx axis with
  | none => .error .attributeError
  | some i => .ok ⟨name, shape, i⟩

/-- `out.shape`, rotmat.py 23-27; the same in the component, 21-25. -/
def Rotmat.outShape (c : Rotmat) : List Nat := if c.shape = [1] then [3, 3] else c.shape ++ [3, 3]

def Rotmat.size (c : Rotmat) : Nat := prodShape c.shape

def Rotmat.ins (c : Rotmat) : List (String × Nat) := [(c.name, c.size)]

/-- `m[…, i, j] = v` for one matrix. -/
noncomputable def setEntry (m : Nat × Nat → ℝ) (p : Nat × Nat) (v : ℝ) : Nat × Nat → ℝ :=
  fun q => if q = p then v else m q

/-- The assignments of `compute`, 65-70, for one angle. -/
noncomputable def RotIdx.matrix (x : RotIdx) (a : ℝ) : Nat × Nat → ℝ :=
  setEntry (setEntry (setEntry (setEntry (setEntry (fun _ => 0)
    x.cos1 (Real.cos a)) x.cos2 (Real.cos a)) x.sin1 (-Real.sin a)) x.sin2 (Real.sin a)) (x.one, x.one) 1

/-- The assignments of `compute_partials`, 82-86, for one angle. -/
noncomputable def RotIdx.deriv (x : RotIdx) (a : ℝ) : Nat × Nat → ℝ :=
  setEntry (setEntry (setEntry (setEntry (fun _ => 0)
    x.cos1 (-Real.sin a)) x.cos2 (-Real.sin a)) x.sin1 (-Real.cos a)) x.sin2 (Real.cos a)

/-- rotation_matrix_comp.py 58-70 -/
noncomputable def Rotmat.compute (c : Rotmat) (inp : String → Nat → ℝ) (r : Nat) : ℝ :=
  c.idx.matrix (inp c.name (r / 9)) (r % 9 / 3, r % 3)

/-- rotation_matrix_comp.py 34-37 and 72-86: every angle has nine rows. -/
noncomputable def Rotmat.partials (c : Rotmat) (inp : String → Nat → ℝ) (_ : String) : Coo :=
  ⟨List.range (prodShape c.outShape), npRepeat (List.range c.size) 9,
    npFlat (prodShape c.outShape) fun r => c.idx.deriv (inp c.name (r / 9)) (r % 9 / 3, r % 3)⟩

end OM
