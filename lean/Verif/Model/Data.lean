import Verif.Model.Err
import Verif.Model.Numpy
import Mathlib.Data.Real.Basic

/-!
# Model of `get_shape_val` and `structure_data`

`omtools/utils/get_shape_val.py`, `omtools/utils/structure_data.py`.
-/

namespace OM

/-- An array: its shape and its entries in row-major order. -/
structure NdArr where
  shape : List Nat
  data : List ℝ
  size : data.length = prodShape shape

/-- The value handed to `declare_input`, `create_indep_var`, `create_output` or `create_implicit_output`. A list is
given with what `np.array` makes of it. -/
inductive PyVal
  | number (c : ℝ)
  | list (conv : Except PyErr NdArr)
  | array (a : NdArr)
  | other

/-- `val * np.ones(shape)` -/
def npFull (shape : List Nat) (c : ℝ) : NdArr := ⟨shape, List.replicate (prodShape shape) c, List.length_replicate⟩

/-- Lines 30-35, for an array. -/
def arrShapeVal (shape : List Nat) (a : NdArr) : Except PyErr (List Nat × NdArr) :=
  if shape = [1] then .ok (a.shape, a)
  else if a.shape ≠ shape then .error .valueError
  else .ok (shape, a)

/-- `self.shape, self.val = get_shape_val(shape, val)`, get_shape_val.py 26-35, input.py 33, indep.py 33,
explicit_output.py 39, implicit_output.py 68. For any other value the function returns `None`, which cannot be
unpacked. -/
def getShapeVal (shape : List Nat) : PyVal → Except PyErr (List Nat × NdArr)
  | .number c => .ok (shape, npFull shape c)
  | .list conv => match conv with
    | .ok a => arrShapeVal shape a
    | .error e => .error e
  | .array a => arrShapeVal shape a
  | .other => .error .typeError

/-- `np.array(np.meshgrid(*inputs, indexing='ij'))`, flat: for each input, its coordinate at every point of the
grid. -/
def meshFlat (inputs : List (List ℝ)) : List ℝ :=
  (List.range inputs.length).flatMap fun k => (cartesian inputs).map fun p => p.getD k 0

structure TrainingData where
  /-- `xt`, row by row -/
  xt : List (List ℝ)
  /-- `xlimits`, row by row -/
  xlimits : List (ℝ × ℝ)

/-- `structure_data(inputs, output, ny)`, structure_data.py 4-30. Simplification: `inputs` are one-dimensional (or
already flattened, as `meshgrid` does); `ny` is positive and the quotient in line 21 does not exceed the precision of
floats. `np.min` raises for an empty array. -/
noncomputable def structureData (inputs : List (List ℝ)) (outShape : List Nat) (ny : Nat) :
    Except PyErr TrainingData :=
  let P := prodShape outShape / ny
  let m := inputs.length
  let flat := meshFlat inputs
  if flat.length ≠ P * m then .error .valueError
  else match flat with
    | [] => .error .valueError
    | x :: xs =>
      .ok ⟨(List.range P).map fun p => (List.range m).map fun q => flat.getD (p * m + q) 0,
           List.replicate m (xs.foldl min x, xs.foldl max x)⟩

end OM
