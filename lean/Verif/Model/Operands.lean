import Verif.Model.Data
import Verif.Model.Reduce

/-!
# Model of what components are told about their operands

The `build` functions of `omtools/std/*.py` and `omtools/core/variable.py` hand names, shapes and initial values of the
operands to components, which hand them to `add_input`. OpenMDAO keeps the initial value of an input that is not
connected.

Simplifications. Only what concerns the inputs is modelled here; the names of the operands differ; the functions have
accepted the shapes of their operands (their own checks are in the models of the functions). `ensure_compatible` of
OpenMDAO repeats an array of shape `(1,)` and refuses any other array of a shape different from the one declared.
-/

namespace OM

/-- A dimension: `np` says that it is a NumPy integer and not an `int`. -/
structure Dim where
  n : Nat
  np : Bool := false
  deriving DecidableEq, Repr

/-- What is read of an object: `name`, `shape`, `val`. -/
structure ReadVar where
  name : String
  dims : List Dim
  val : NdArr

def ReadVar.shape (x : ReadVar) : List Nat := x.dims.map Dim.n

/-- `np.array([1])`, the value of an expression, variable.py 128. -/
def npOne : NdArr := ⟨[1], [1], rfl⟩

/-- `tuple(np.delete(shape, axes))`: the entries are NumPy integers; sum.py 46, average.py 48, max.py 35, min.py 35,
pnorm.py 45, dot.py 51; `np.append` of two such arrays, inner.py 44. -/
def deleteDims (axes : List Nat) (dims : List Dim) : List Dim :=
  ((npDelete axes dims).map fun d => { d with np := true })

/-- The arguments of `add_input`; `none` if not given. -/
structure InputDecl where
  name : String
  shape : Option (List Nat)
  val : Option NdArr

/-- The initial value of the input: `ensure_compatible` of OpenMDAO; the default value is `1.0`. -/
def InputDecl.initial (d : InputDecl) : Except PyErr NdArr :=
  match d.shape, d.val with
  | none, none => .ok (npFull [1] 1)
  | some s, none => .ok (npFull s 1)
  | none, some v => .ok v
  | some s, some v =>
    if v.shape = [1] then .ok (npFull s (v.data.headD 0))
    else if v.shape = s then .ok v
    else .error .valueError

/-- The operations, by what they tell their component about the operands. -/
inductive Reading
  /-- Each input has the shape and the value of the operand: the unary functions (sin.py 13-20, …), one operand of
  `sum`, `average`, `max`, `min` (sum.py 31-36, 51-57, average.py 33-38, 53-59, max.py 38-45, 68-73), `pnorm` (37-56),
  `reorder_axes`, `transpose`, `reshape`, `rotmat`, `expand` of arrays (expand.py 48-54; the shapes were compared in
  45), `einsum` (36-52), `inner` and `outer` of tensors (inner.py 46-53, outer.py 43-48), `matvec` (31-36), `matmat` of
  matrices (32-37), indexing (decompose_comp.py 17-21), `register_output` of an input (pass_through_comp.py 12-17),
  indexed assignment (explicit_output.py 149-164), implicit components (implicit_component.py 71-75). -/
  | own (xs : List ReadVar)
  /-- Each input has the shape of the operand `s`: `+`, `-`, `*`, `/`, `**` (variable.py 418-455, 481-522, 548-591,
  617-660), several operands of `sum`, `average`, `max`, `min` (sum.py 38-44, 59-66, max.py 55-62), `dot` of tensors
  (dot.py 53-60), `cross` (38-46). -/
  | common (s : ReadVar) (xs : List ReadVar)
  /-- `outer` of vectors, outer.py 34-39, vector_outer_product_comp.py 23-24: the shapes are numbers. -/
  | outerVectors (x y : ReadVar)
  /-- `inner` and `dot` of vectors, inner.py 34-39, dot.py 39-44, vector_inner_product_comp.py 12, 21-22. -/
  | innerVectors (x y : ReadVar)
  /-- `matmat` of a matrix and a vector, matmat.py 39-49. -/
  | matVector (a y : ReadVar)
  /-- `expand` of a scalar, expand.py 56-60, scalar_expansion_comp.py 19. -/
  | expandScalar (x : ReadVar)
  /-- `if_else`, if_else.py 20-22. -/
  | ifElse (c t f : ReadVar)

def Reading.operands : Reading → List ReadVar
  | .own xs => xs
  | .common _ xs => xs
  | .outerVectors x y => [x, y]
  | .innerVectors x y => [x, y]
  | .matVector a y => [a, y]
  | .expandScalar x => [x]
  | .ifElse c t f => [c, t, f]

/-- `v.reshape(shape)` -/
def npReshape (v : NdArr) (shape : List Nat) : Except PyErr NdArr :=
  if h : v.data.length = prodShape shape then .ok ⟨shape, v.data, h⟩ else .error .valueError

/-- The `add_input` calls made by `build` and `setup`. `innerVectors`: the option `in_shape` has to be an `int`.
`matVector`: the value is reshaped. -/
def Reading.decls : Reading → Except PyErr (List InputDecl)
  | .own xs => .ok (xs.map fun x => ⟨x.name, some x.shape, some x.val⟩)
  | .common s xs => .ok (xs.map fun x => ⟨x.name, some s.shape, some x.val⟩)
  | .outerVectors x y =>
    match x.dims, y.dims with
    | d :: _, e :: _ => .ok [⟨x.name, some [d.n], some x.val⟩, ⟨y.name, some [e.n], some y.val⟩]
    | _, _ => .error .indexError
  | .innerVectors x y =>
    match x.dims with
    | d :: _ =>
      if d.np then .error .typeError
      else .ok [⟨x.name, some [d.n], some x.val⟩, ⟨y.name, some [d.n], some y.val⟩]
    | [] => .error .indexError
  | .matVector a y =>
    match y.dims with
    | d :: _ =>
      match npReshape y.val [d.n, 1] with
      | .ok v => .ok [⟨a.name, some a.shape, some a.val⟩, ⟨y.name, some [d.n, 1], some v⟩]
      | .error e => .error e
    | [] => .error .indexError
  | .expandScalar x => .ok [⟨x.name, none, none⟩]
  | .ifElse c t f => .ok ([c, t, f].map fun x => ⟨x.name, none, some x.val⟩)

/-- The inputs of the component with their initial values. -/
def Reading.inputs (r : Reading) : Except PyErr (List (String × NdArr)) := do
  (← r.decls).mapM fun d => do
    let v ← d.initial
    pure (d.name, v)

end OM
