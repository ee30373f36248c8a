import Verif.Model.Reduce

/-!
# Model of matrix, outer, inner and dot products

`omtools/std/{matmat,matvec,outer,inner,dot}.py` and `omtools/comps/{matmat,matvec,vector_outer_product,
tensor_outer_product,vector_inner_product,tensor_inner_product,tensor_dot_product}_comp.py`.

Simplifications. Values are flat arrays of reals; initial values are left out. `matmat` and `matvec` read
`mat1.shape[0]` and `mat1.shape[1]` only; a first operand of rank above 2 with an axis of length zero is refused, which
may be wrong. Errors that NumPy or OpenMDAO raise when the model is set up or run (operands of different lengths, repeated
or mismatched axes) are raised when the expression is made. A dense partial is a sparse one that lists every
entry in row-major order.
-/

namespace OM

/-! ## NumPy -/

/-- `np.repeat(l, k)` -/
def npRepeat {α : Type} (l : List α) (k : Nat) : List α := l.flatMap fun a => List.replicate k a

/-- `np.tile(l, k)` for a vector. -/
def npTile {α : Type} (l : List α) (k : Nat) : List α := (List.replicate k l).flatten

/-- `a.flatten()` -/
def npFlat {α : Type} (N : Nat) (x : Nat → α) : List α := (List.range N).map x

/-- `np.tile(a, k).flatten()` for a matrix of shape `(m, n)`: the last axis is repeated. -/
def npTileMat {α : Type} (m n : Nat) (x : Nat → α) (k : Nat) : List α :=
  (List.range m).flatMap fun i => npTile ((List.range n).map fun j => x (i * n + j)) k

/-- `np.transpose(a).flatten()` for a matrix of shape `(n, p)`. -/
def npFlatT {α : Type} (n p : Nat) (x : Nat → α) : List α :=
  (List.range p).flatMap fun j => (List.range n).map fun k => x (k * p + j)

/-- A dense partial of `M` rows and `N` columns, from the flat array assigned to it. -/
def denseCoo (M N : Nat) (f : Nat → ℝ) : Coo :=
  ⟨npRepeat (List.range M) N, npTile (List.range N) M, npFlat (M * N) f⟩

/-- `a @ b` for matrices of shapes `(m, n)` and `(n, p)`. -/
noncomputable def npMatmul (n p : Nat) (a b : Nat → ℝ) (r : Nat) : ℝ :=
  ((List.range n).map fun k => a (r / p * n + k) * b (k * p + r % p)).sum

/-- Two operands with different names: `add_input` of OpenMDAO raises `ValueError` for a name added before. -/
def setup2 (n0 n1 : String) : Except PyErr Unit := if n0 = n1 then .error .valueError else .ok ()

/-! ## Matrix products -/

structure MatMat where
  n0 : String
  n1 : String
  m : Nat
  n : Nat
  p : Nat

/-- `matmat`, std/matmat.py 22-52. For a first operand of more than two axes, `declare_partials` refuses rows and columns of
different numbers (matmat_comp.py 53-59), and `@` (71) a last axis, of length one then, that is not as long as the first of
the second operand. -/
def stdMatmat (n0 : String) (shape1 : List Nat) (n1 : String) (shape2 : List Nat) : Except PyErr MatMat :=
  match shape1, shape2 with
  | m :: n :: rest, n' :: l =>
    if n ≠ n' ∨ 2 ≤ l.length then .error .exception
    else if rest ≠ [] ∧ (prodShape rest ≠ 1 ∨ n ≠ 1) then .error .valueError
    else .ok ⟨n0, n1, m, n, l.headD 1⟩
  | _, _ => .error .indexError

/-- `out.shape`, matmat.py 30 and 40. -/
def MatMat.outShape (c : MatMat) : List Nat := [c.m, c.p]

/-- The shape given to `add_output`, matmat_comp.py 38-47. -/
def MatMat.compShape (c : MatMat) : List Nat := if c.p ≠ 1 then [c.m, c.p] else [c.m]

def MatMat.ins (c : MatMat) : List (String × Nat) := [(c.n0, c.m * c.n), (c.n1, c.n * c.p)]

def MatMat.setup (c : MatMat) : Except PyErr Unit := setup2 c.n0 c.n1

/-- matmat_comp.py 67-71 -/
noncomputable def MatMat.compute (c : MatMat) (inp : String → Nat → ℝ) : Nat → ℝ :=
  npMatmul c.n c.p (inp c.n0) (inp c.n1)

/-- matmat_comp.py 49-65 and 73-82 -/
noncomputable def MatMat.partials (c : MatMat) (inp : String → Nat → ℝ) (name : String) : Coo :=
  if name = c.n0 then
    ⟨npRepeat (List.range (prodShape c.compShape)) c.n, npTileMat c.m c.n id c.p,
      npTile (npFlatT c.n c.p (inp c.n1)) c.m⟩
  else
    ⟨npRepeat (List.range (prodShape c.compShape)) c.n, npTile (npFlatT c.n c.p id) c.m,
      npTileMat c.m c.n (inp c.n0) c.p⟩

structure MatVec where
  n0 : String
  n1 : String
  m : Nat
  n : Nat

/-- `matvec`, std/matvec.py 21-40; a first operand of more than two axes as in `matmat`, matvec_comp.py 45-50 and 57. -/
def stdMatvec (n0 : String) (shape1 : List Nat) (n1 : String) (shape2 : List Nat) : Except PyErr MatVec :=
  match shape1, shape2 with
  | m :: n :: rest, n' :: l =>
    if n ≠ n' ∨ 1 ≤ l.length then .error .exception
    else if rest ≠ [] ∧ (prodShape rest ≠ 1 ∨ n ≠ 1) then .error .valueError
    else .ok ⟨n0, n1, m, n⟩
  | _, _ => .error .indexError

def MatVec.outShape (c : MatVec) : List Nat := [c.m]

def MatVec.ins (c : MatVec) : List (String × Nat) := [(c.n0, c.m * c.n), (c.n1, c.n)]

def MatVec.setup (c : MatVec) : Except PyErr Unit := setup2 c.n0 c.n1

/-- matvec_comp.py 53-57: `a @ v` -/
noncomputable def MatVec.compute (c : MatVec) (inp : String → Nat → ℝ) : Nat → ℝ :=
  npMatmul c.n 1 (inp c.n0) (inp c.n1)

/-- matvec_comp.py 43-51 and 59-67 -/
noncomputable def MatVec.partials (c : MatVec) (inp : String → Nat → ℝ) (name : String) : Coo :=
  if name = c.n0 then
    ⟨npRepeat (List.range c.m) c.n, List.range (c.m * c.n), npTile (npFlat c.n (inp c.n1)) c.m⟩
  else denseCoo c.m c.n (inp c.n0)

/-! ## Outer products -/

structure Outer where
  n0 : String
  n1 : String
  shape0 : List Nat
  shape1 : List Nat

/-- `outer`, std/outer.py 22-49. The vector component and the tensor component declare and compute the
same arrays; the tensor component names the axes with the 26 letters (tensor_outer_product_comp.py 21-28):
with more axes the subscripts are too short and `np.einsum` raises `ValueError`. -/
def stdOuter (n0 : String) (shape0 : List Nat) (n1 : String) (shape1 : List Nat) : Except PyErr Outer :=
  if shape0.length + shape1.length ≤ 26 then .ok ⟨n0, n1, shape0, shape1⟩ else .error .valueError

def Outer.outShape (c : Outer) : List Nat := c.shape0 ++ c.shape1
def Outer.size0 (c : Outer) : Nat := prodShape c.shape0
def Outer.size1 (c : Outer) : Nat := prodShape c.shape1
def Outer.ins (c : Outer) : List (String × Nat) := [(c.n0, c.size0), (c.n1, c.size1)]
def Outer.setup (c : Outer) : Except PyErr Unit := setup2 c.n0 c.n1

/-- `np.outer`, vector_outer_product_comp.py 35-39; `np.einsum('ab,cd->abcd', …)`,
tensor_outer_product_comp.py 47-52. -/
noncomputable def Outer.compute (c : Outer) (inp : String → Nat → ℝ) (r : Nat) : ℝ :=
  inp c.n0 (r / c.size1) * inp c.n1 (r % c.size1)

/-- vector_outer_product_comp.py 28-33, 41-49; tensor_outer_product_comp.py 36-45, 54-64. -/
noncomputable def Outer.partials (c : Outer) (inp : String → Nat → ℝ) (name : String) : Coo :=
  if name = c.n0 then
    ⟨List.range (prodShape c.outShape), npRepeat (List.range c.size0) c.size1,
      npTile (npFlat c.size1 (inp c.n1)) c.size0⟩
  else
    ⟨List.range (prodShape c.outShape), npTile (List.range c.size1) c.size0,
      npRepeat (npFlat c.size0 (inp c.n0)) c.size1⟩

/-! ## Inner product of vectors and dot product -/

structure VecInner where
  n0 : String
  n1 : String
  n : Nat

def VecInner.ins (c : VecInner) : List (String × Nat) := [(c.n0, c.n), (c.n1, c.n)]
def VecInner.setup (c : VecInner) : Except PyErr Unit := setup2 c.n0 c.n1

/-- vector_inner_product_comp.py 29-33 -/
noncomputable def VecInner.compute (c : VecInner) (inp : String → Nat → ℝ) (_ : Nat) : ℝ :=
  ((List.range c.n).map fun k => inp c.n0 k * inp c.n1 k).sum

/-- vector_inner_product_comp.py 26-27, 35-40 -/
noncomputable def VecInner.partials (c : VecInner) (inp : String → Nat → ℝ) (name : String) : Coo :=
  denseCoo 1 c.n (if name = c.n0 then inp c.n1 else inp c.n0)

structure TensorDot where
  n0 : String
  n1 : String
  shape : List Nat
  axis : Nat

/-- `dot`, std/dot.py 26-61. -/
def stdDot (n0 : String) (shape0 : List Nat) (n1 : String) (shape1 : List Nat) (axis : Option Int) :
    Except PyErr (VecInner ⊕ TensorDot) :=
  if shape0 ≠ shape1 then .error .exception
  else
    match shape0 with
    | [n] => .ok (.inl ⟨n0, n1, n⟩)
    | _ =>
      match axis with
      | none => .error .typeError
      | some a =>
        match normAxis shape0.length a with
        | none => .error .indexError
        | some ax => if shape0.getD ax 0 ≠ 3 then .error .exception else .ok (.inr ⟨n0, n1, shape0, ax⟩)

def TensorDot.outShape (c : TensorDot) : List Nat := npDelete [c.axis] c.shape
def TensorDot.size (c : TensorDot) : Nat := prodShape c.shape
def TensorDot.ins (c : TensorDot) : List (String × Nat) := [(c.n0, c.size), (c.n1, c.size)]
def TensorDot.setup (c : TensorDot) : Except PyErr Unit := setup2 c.n0 c.n1

/-- tensor_dot_product_comp.py 47-53 -/
noncomputable def TensorDot.compute (c : TensorDot) (inp : String → Nat → ℝ) : Nat → ℝ :=
  npSum c.shape [c.axis] fun k => inp c.n0 k * inp c.n1 k

/-- tensor_dot_product_comp.py 34-45, 55-61 -/
noncomputable def TensorDot.partials (c : TensorDot) (inp : String → Nat → ℝ) (name : String) : Coo :=
  ⟨(List.range c.size).map (redRow c.shape [c.axis]), List.range c.size,
    npFlat c.size (if name = c.n0 then inp c.n1 else inp c.n0)⟩

/-! ## Inner product of tensors -/

/-- Shape of `np.tensordot(a, b, axes)`. -/
def tensordotShape (sa axa sb axb : List Nat) : List Nat := npDelete axa sa ++ npDelete axb sb

/-- Do positions `i` of the first and `j` of the second array agree on the contracted axes? -/
def contracted (sa axa sb axb : List Nat) (i j : Nat) : Bool :=
  decide (axa.map (fun k => (unravel sa i).getD k 0) = axb.map (fun k => (unravel sb j).getD k 0))

/-- The position of the result to which the product of entries `i` and `j` is added. -/
def tensordotRow (sa axa sb axb : List Nat) (i j : Nat) : Nat :=
  ravel (tensordotShape sa axa sb axb) (npDelete axa (unravel sa i) ++ npDelete axb (unravel sb j))

/-- `np.tensordot(a, b, axes)`: the sum over the contracted axes; the other axes of `a` come first. -/
noncomputable def npTensordot (sa axa sb axb : List Nat) (a b : Nat → ℝ) (r : Nat) : ℝ :=
  ((List.range (prodShape sa)).map fun i => ((List.range (prodShape sb)).map fun j =>
    if contracted sa axa sb axb i j = true ∧ tensordotRow sa axa sb axb i j = r then a i * b j
    else 0).sum).sum

/-- `np.transpose(x, perm)` for an array of shape `s`: axis `k` of the result is axis `perm[k]` of `x`. -/
def npTranspose {α : Type} (s perm : List Nat) (x : Nat → α) (c : Nat) : α :=
  let idx := unravel (perm.map fun k => s.getD k 0) c
  x (ravel s ((List.range s.length).map fun ax => idx.getD (perm.idxOf ax) 0))

/-- `I = np.zeros(2 * shape); I[2 * ind] += 1`, tensor_inner_product_comp.py 37-52. -/
def npIdentity (N : Nat) (c : Nat) : ℝ := if c / N = c % N then 1 else 0

structure TensorInner where
  n0 : String
  n1 : String
  shape0 : List Nat
  shape1 : List Nat
  axes0 : List Int
  axes1 : List Int

/-- The axes of an array of rank `rank`, as resolved by NumPy. -/
def resolveAxes (rank : Nat) (axes : List Int) : List Nat :=
  axes.map fun (a : Int) => Int.toNat (if a < 0 then a + (rank : Int) else a)

/-- `inner`, std/inner.py 24-54: `np.delete` looks at both tuples of axes before `np.tensordot` refuses axes that are named
twice. -/
def stdInner (n0 : String) (shape0 : List Nat) (n1 : String) (shape1 : List Nat)
    (axes : Option (List Int × List Int)) : Except PyErr (VecInner ⊕ TensorInner) :=
  match shape0, shape1 with
  | [n], [n'] => if n = n' then .ok (.inl ⟨n0, n1, n⟩) else .error .valueError
  | _, _ =>
    match axes with
    | none => .error .typeError
    | some (a0, a1) =>
      match normAxes shape0.length a0 with
      | .error e => if a1.mapM (normAxis shape1.length) = none then .error .indexError else .error e
      | .ok l0 =>
        match normAxes shape1.length a1 with
        | .error e => .error e
        | .ok l1 =>
          if l0.map (fun k => shape0.getD k 0) ≠ l1.map (fun k => shape1.getD k 0) then .error .valueError
          else .ok (.inr ⟨n0, n1, shape0, shape1, a0, a1⟩)

def TensorInner.size0 (c : TensorInner) : Nat := prodShape c.shape0
def TensorInner.size1 (c : TensorInner) : Nat := prodShape c.shape1
def TensorInner.ins (c : TensorInner) : List (String × Nat) := [(c.n0, c.size0), (c.n1, c.size1)]
def TensorInner.setup (c : TensorInner) : Except PyErr Unit := setup2 c.n0 c.n1

/-- `np.delete(shape0, axes[0])` -/
def TensorInner.rem0 (c : TensorInner) : List Nat :=
  npDelete (resolveAxes c.shape0.length c.axes0) c.shape0

def TensorInner.rem1 (c : TensorInner) : List Nat :=
  npDelete (resolveAxes c.shape1.length c.axes1) c.shape1

/-- `out.shape`, inner.py 42-44. -/
def TensorInner.outShape (c : TensorInner) : List Nat := c.rem0 ++ c.rem1

/-- tensor_inner_product_comp.py 68-75 -/
noncomputable def TensorInner.compute (c : TensorInner) (inp : String → Nat → ℝ) : Nat → ℝ :=
  npTensordot c.shape0 (resolveAxes c.shape0.length c.axes0)
    c.shape1 (resolveAxes c.shape1.length c.axes1) (inp c.n0) (inp c.n1)

/-- `new_axes_locations`, 54-63 -/
def TensorInner.perm (c : TensorInner) : List Nat :=
  let rem := c.rem0.length
  let part := rem + c.shape0.length
  let total := rem + rem + c.shape1.length
  List.range rem ++ List.range' part (total - part) ++ List.range' rem (part - rem)

/-- The array assigned to the partial by the first operand, 82-85: NumPy resolves the axes in the array
of twice the rank. -/
noncomputable def TensorInner.part0 (c : TensorInner) (b : Nat → ℝ) : Nat → ℝ :=
  let s := c.shape0 ++ c.shape0
  let ax0 := resolveAxes s.length c.axes0
  let ax1 := resolveAxes c.shape1.length c.axes1
  npTranspose (tensordotShape s ax0 c.shape1 ax1) c.perm
    (npTensordot s ax0 c.shape1 ax1 (npIdentity c.size0) b)

/-- The array assigned to the partial by the second operand, 86-88. -/
noncomputable def TensorInner.part1 (c : TensorInner) (a : Nat → ℝ) : Nat → ℝ :=
  let s := c.shape1 ++ c.shape1
  npTensordot c.shape0 (resolveAxes c.shape0.length c.axes0) s (resolveAxes s.length c.axes1)
    a (npIdentity c.size1)

/-- tensor_inner_product_comp.py 65-66, 77-88: dense. -/
noncomputable def TensorInner.partials (c : TensorInner) (inp : String → Nat → ℝ) (name : String) : Coo :=
  if name = c.n0 then denseCoo (prodShape c.outShape) c.size0 (c.part0 (inp c.n1))
  else denseCoo (prodShape c.outShape) c.size1 (c.part1 (inp c.n0))

end OM
