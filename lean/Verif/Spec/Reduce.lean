import Verif.Model.Numpy
import Verif.Model.Reduce
import Mathlib.Data.Real.Basic

/-! # Reductions over axes, by multi-indices -/

namespace OM.Spec

/-- All multi-indices of an array. -/
def indices (shape : List Nat) : List (List Nat) := cartesian (shape.map List.range)

/-- The multi-indices that become `j` when the components at positions `axes` are removed. -/
def fibre (shape axes j : List Nat) : List (List Nat) :=
  (indices shape).filter fun idx => npDelete axes idx = j

/-- The entries of a flat array on a fibre. -/
def fibreValues (shape axes : List Nat) (x : Nat → ℝ) (j : List Nat) : List ℝ :=
  (fibre shape axes j).map fun idx => x (ravel shape idx)

end OM.Spec
