import Verif.Model.Product

/-!
# Model of expand, reorder_axes, transpose and reshape

`omtools/std/{expand,reorder_axes,transpose,reshape}.py`, `omtools/utils/{decompose_shape_tuple,
reorder_axes_utils}.py`, `omtools/comps/{array_expansion,scalar_expansion,reorder_axes,transpose,
reshape}_comp.py`.

Simplifications. Values are flat arrays of reals; initial values are left out. Strings are lists of
characters. Errors that NumPy or OpenMDAO raise when the model is set up or run are raised when the
expression is made.
-/

namespace OM

/-! ## Strings -/

/-- `s.split('->')`, with the current part in reverse order. -/
def splitArrow (acc : List Char) : List Char → List (List Char)
  | '-' :: '>' :: t => acc.reverse :: splitArrow [] t
  | c :: t => splitArrow (c :: acc) t
  | [] => [acc.reverse]

/-! ## `expand` -/

/-- What `expand` builds: `scalar` for an input of shape `(1,)`. -/
structure Expand where
  name : String
  inShape : List Nat
  shape : List Nat
  expandIndices : List Nat
  scalar : Bool

/-- Positions in `out` of letters that do not occur in `in`, expand.py 21-26. -/
def expandIndicesOf (in_ out : List Char) : List Nat :=
  (List.range out.length).filter fun i => out.getD i ' ' ∉ in_

/-- `shape_selection` of `decompose_shape_tuple`, 10-20: the lengths of the axes that are not selected.
`IndexError` for more than ten axes (`alphabet[index]`). -/
def decomposeShape (shape select : List Nat) : Except PyErr (List Nat) :=
  if 10 < shape.length then .error .indexError
  else .ok (npDelete select shape)

/-- `expand`, std/expand.py 9-61. The string is `None` or has an arrow; with two arrows, unpacking
raises `ValueError`. -/
def stdExpand (name : String) (inShape shape : List Nat) (indices : Option (List Char)) :
    Except PyErr Expand :=
  match indices with
  | none => if inShape = [1] then .ok ⟨name, inShape, shape, [], true⟩ else .error .valueError
  | some str =>
    match splitArrow [] str with
    | [in_, out] =>
      if inShape = [1] then .ok ⟨name, inShape, shape, [], true⟩
      else
        match decomposeShape shape (expandIndicesOf in_ out) with
        | .error e => .error e
        | .ok sel =>
          if sel ≠ inShape then .error .valueError
          else .ok ⟨name, inShape, shape, expandIndicesOf in_ out, false⟩
    | _ => .error .valueError

def Expand.ins (c : Expand) : List (String × Nat) :=
  [(c.name, if c.scalar then 1 else prodShape c.inShape)]

/-- Which entry of the input each entry of the output copies: `np.einsum('ac,b->abc', in_indices, ones)`,
array_expansion_comp.py 33-46; `np.zeros`, scalar_expansion_comp.py 22-23. -/
def Expand.col (c : Expand) (r : Nat) : Nat :=
  if c.scalar then 0 else redRow c.shape c.expandIndices r

/-- array_expansion_comp.py 49-54, scalar_expansion_comp.py 26-30 -/
noncomputable def Expand.compute (c : Expand) (inp : String → Nat → ℝ) (r : Nat) : ℝ := inp c.name (c.col r)

/-- array_expansion_comp.py 44-47, scalar_expansion_comp.py 22-24 -/
noncomputable def Expand.partials (c : Expand) (_ : String) : Coo :=
  ⟨List.range (prodShape c.shape), (List.range (prodShape c.shape)).map c.col,
    (List.range (prodShape c.shape)).map fun _ => 1⟩

/-! ## `reorder_axes`, `transpose` -/

structure Reorder where
  name : String
  shape : List Nat
  perm : List Nat

/-- `compute_new_axes_locations`, reorder_axes_utils.py 2-11: `ValueError` from `str.index`, `IndexError`
if there is no arrow. -/
def newAxesLocations (operation : List Char) : Except PyErr (List Nat) :=
  match splitArrow [] (operation.filter (· ≠ ' ')) with
  | in_ :: out :: _ => if ∀ ch ∈ out, ch ∈ in_ then .ok (out.map in_.idxOf) else .error .valueError
  | _ => .error .indexError

/-- `reorder_axes`, std/reorder_axes.py 22-40. `expr.shape[i]` raises `IndexError`; `np.transpose` raises
`ValueError` unless the axes are a permutation. -/
def stdReorder (name : String) (shape : List Nat) (operation : List Char) : Except PyErr Reorder :=
  match newAxesLocations operation with
  | .error e => .error e
  | .ok perm =>
    if ∃ k ∈ perm, shape.length ≤ k then .error .indexError
    else if perm.length ≠ shape.length ∨ ¬ perm.Nodup then .error .valueError
    else .ok ⟨name, shape, perm⟩

/-- `transpose`, std/transpose.py 17-29: `np.transpose(x)` reverses the axes. -/
def stdTranspose (name : String) (shape : List Nat) : Reorder :=
  ⟨name, shape, (List.range shape.length).reverse⟩

/-- `out.shape`, reorder_axes.py 29, transpose.py 21. -/
def Reorder.outShape (c : Reorder) : List Nat := c.perm.map fun k => c.shape.getD k 0

def Reorder.size (c : Reorder) : Nat := prodShape c.shape
def Reorder.ins (c : Reorder) : List (String × Nat) := [(c.name, c.size)]

/-- reorder_axes_comp.py 53-58, transpose_comp.py 49-53 -/
noncomputable def Reorder.compute (c : Reorder) (inp : String → Nat → ℝ) : Nat → ℝ :=
  npTranspose c.shape c.perm (inp c.name)

/-- reorder_axes_comp.py 41-51, transpose_comp.py 31-47 -/
noncomputable def Reorder.partials (c : Reorder) (_ : String) : Coo :=
  ⟨List.range c.size, npFlat c.size (npTranspose c.shape c.perm id), List.replicate c.size 1⟩

/-! ## `reshape` -/

structure Reshape where
  name : String
  shape : List Nat
  newShape : List Nat

/-- `reshape`, std/reshape.py 17-29; `x.reshape(new_shape)` raises `ValueError` if the sizes differ,
reshape_comp.py 57. -/
def stdReshape (name : String) (shape newShape : List Nat) : Except PyErr Reshape :=
  if prodShape newShape = prodShape shape then .ok ⟨name, shape, newShape⟩ else .error .valueError

def Reshape.ins (c : Reshape) : List (String × Nat) := [(c.name, prodShape c.shape)]

/-- reshape_comp.py 51-57: the flat array is unchanged. -/
noncomputable def Reshape.compute (c : Reshape) (inp : String → Nat → ℝ) (r : Nat) : ℝ := inp c.name r

/-- reshape_comp.py 43-49 -/
noncomputable def Reshape.partials (c : Reshape) (_ : String) : Coo :=
  ⟨List.range (prodShape c.shape), List.range (prodShape c.shape), List.replicate (prodShape c.shape) 1⟩

end OM
