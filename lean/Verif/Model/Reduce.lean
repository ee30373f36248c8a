import Verif.Model.Err
import Verif.Model.Numpy
import Verif.Spec.Component

/-!
# Model of sums and averages

`omtools/std/{sum,average}.py`, `omtools/comps/{single_tensor_sum,multiple_tensor_sum,
single_tensor_average,multiple_tensor_average}_comp.py`, and the NumPy reductions over axes that are used
by other components too.

Simplifications. Values are flat arrays of reals. Initial values are left out. A repeated axis raises when
the model is run (`np.sum`: `ValueError`); here the error is raised when the expression is made. If every
axis is listed, `np.ravel_multi_index` is called without index arrays; what it does then is not modelled
(it is treated as giving row 0 for every element).
-/

namespace OM

/-! ## NumPy -/

/-- `np.delete(l, axes)` for axes counted from the front. -/
def npDelete {α : Type} (axes : List Nat) (l : List α) : List α :=
  (l.zipIdx.filter fun p => p.2 ∉ axes).map Prod.fst

/-- An axis of an array of rank `rank`; negative axes count from the end. -/
def normAxis (rank : Nat) (a : Int) : Option Nat :=
  if 0 ≤ a ∧ a < rank then some a.toNat
  else if a < 0 ∧ 0 ≤ a + rank then some (a + rank).toNat
  else none

/-- All axes of a tuple: `np.delete` raises `IndexError` if one does not exist; `np.sum` raises
`ValueError` if one is repeated. -/
def normAxes (rank : Nat) (axes : List Int) : Except PyErr (List Nat) :=
  match axes.mapM (normAxis rank) with
  | none => .error .indexError
  | some l => if l.Nodup then .ok l else .error .valueError

/-- The flat position in the result of the element at flat position `c`, when `axes` are removed:
`np.ravel_multi_index(np.delete(np.unravel_index(c, shape), axes), np.delete(shape, axes))`. -/
def redRow (shape axes : List Nat) (c : Nat) : Nat :=
  ravel (npDelete axes shape) (npDelete axes (unravel shape c))

/-- The flat positions that are reduced to position `r` of the result. -/
def redGroup (shape axes : List Nat) (r : Nat) : List Nat :=
  (List.range (prodShape shape)).filter fun c => redRow shape axes c = r

/-- `np.sum(x, axis=axes)`. -/
noncomputable def npSum (shape axes : List Nat) (x : Nat → ℝ) (r : Nat) : ℝ :=
  ((redGroup shape axes r).map x).sum

/-- `np.average(x, axis=axes)`: the arithmetic mean. -/
noncomputable def npAverage (shape axes : List Nat) (x : Nat → ℝ) (r : Nat) : ℝ :=
  npSum shape axes x r / (redGroup shape axes r).length

/-- `np.sum(x)` -/
noncomputable def npSumAll (N : Nat) (x : Nat → ℝ) : ℝ := ((List.range N).map x).sum

/-! ## The functions -/

/-- A sum or an average, as created by `sum` / `average`. -/
structure Red where
  names : List String
  shape : List Nat
  axes : Option (List Nat)

/-- `sum`, std/sum.py 24-66, and `average`, std/average.py 26-68: the shape used is the shape of the last
operand. -/
def stdRed (ops : List (String × List Nat)) (axes : Option (List Int)) : Except PyErr Red :=
  match ops.getLast? with
  | none => .error .unboundLocalError
  | some (_, shape) =>
    match axes with
    | none => .ok ⟨ops.map Prod.fst, shape, none⟩
    | some ax =>
      match normAxes shape.length ax with
      | .error e => .error e
      | .ok l => .ok ⟨ops.map Prod.fst, shape, some l⟩

/-- Shape of the expression: `out.shape`, which is `(1,)` unless assigned (sum.py 36, 44; average.py
38, 46). -/
def Red.outShape (c : Red) : List Nat :=
  match c.axes with
  | some axes => npDelete axes c.shape
  | none => if c.names.length = 1 then [1] else c.shape

def Red.size (c : Red) : Nat := prodShape c.shape

/-- The inputs added by `setup`. -/
def Red.ins (c : Red) : List (String × Nat) := c.names.map fun n => (n, c.size)

/-- `add_input` of OpenMDAO raises `ValueError` for a name added before. -/
def Red.setup (c : Red) : Except PyErr Unit :=
  if c.names.Nodup then .ok () else .error .valueError

/-- Rows and columns declared for each input: single_tensor_sum_comp.py 54-72, the same in the other
three. -/
def Red.rows (c : Red) : List Nat :=
  match c.axes with
  | some axes => (List.range c.size).map (redRow c.shape axes)
  | none => if c.names.length = 1 then List.replicate c.size 0 else List.range c.size

/-! ### Sum -/

/-- `SingleTensorSumComp.compute`, 75-86, and `MultipleTensorSumComp.compute`, 75-90. -/
noncomputable def Red.sum (c : Red) (inp : String → Nat → ℝ) : Nat → ℝ :=
  match c.axes, c.names with
  | _, [] => fun _ => 0
  | none, [n] => fun _ => npSumAll c.size (inp n)
  | some axes, [n] => npSum c.shape axes (inp n)
  | none, n :: ns => ns.foldl (fun out m i => out i + inp m i) (inp n)
  | some axes, n :: ns =>
    ns.foldl (fun out m i => out i + npSum c.shape axes (inp m) i) (npSum c.shape axes (inp n))

/-- The partials declared by `setup`: all values are one. -/
noncomputable def Red.sumPartials (c : Red) (name : String) : Coo :=
  if name ∈ c.names then ⟨c.rows, List.range c.size, List.replicate c.size 1⟩ else ⟨[], [], []⟩

/-! ### Average -/

/-- `SingleTensorAverageComp.compute`, 73-84, and `MultipleTensorAverageComp.compute`, 78-95. -/
noncomputable def Red.average (c : Red) (inp : String → Nat → ℝ) : Nat → ℝ :=
  match c.axes, c.names with
  | _, [] => fun _ => 0
  | none, [n] => fun _ => npSumAll c.size (inp n) / c.size
  | some axes, [n] => npAverage c.shape axes (inp n)
  | none, n :: ns => fun i =>
    ns.foldl (fun out m i => out i + inp m i) (inp n) i / ((n :: ns).length : ℕ)
  | some axes, n :: ns => fun i =>
    ns.foldl (fun out m i => out i + npAverage c.shape axes (inp m) i) (npAverage c.shape axes (inp n)) i /
      ((n :: ns).length : ℕ)

/-- `np.prod(np.array(shape)[axes])` with a tuple `axes`: the tuple is one index into a vector, so that two
or more axes raise `IndexError`, and no axis gives the whole vector. -/
def entriesAveraged (shape axes : List Nat) : Except PyErr Nat :=
  match axes with
  | [] => .ok (prodShape shape)
  | [a] => match shape[a]? with
    | some n => .ok n
    | none => .error .indexError
  | _ => .error .indexError

/-- The value of all declared partials; part of `setup`, single_tensor_average_comp.py 50-71 and
multiple_tensor_average_comp.py 49-76. -/
noncomputable def Red.averageWeight (c : Red) : Except PyErr ℝ :=
  match c.axes with
  | none => if c.names.length = 1 then .ok (1 / c.size) else .ok (1 / c.names.length)
  | some axes =>
    match entriesAveraged c.shape axes with
    | .error e => .error e
    | .ok k => if c.names.length = 1 then .ok (1 / k) else .ok (1 / (k * c.names.length))

noncomputable def Red.averagePartials (c : Red) (w : ℝ) (name : String) : Coo :=
  if name ∈ c.names then ⟨c.rows, List.range c.size, List.replicate c.size w⟩ else ⟨[], [], []⟩

end OM
