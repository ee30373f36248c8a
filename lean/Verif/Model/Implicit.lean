import Mathlib.Data.Real.Basic
import Mathlib.Data.List.Nodup
import Verif.Model.Err

/-!
# Model of implicit outputs and of the solvers of `ImplicitComponent`

`omtools/core/implicit_output.py` 71-161, `omtools/comps/implicit_component.py`.

Simplifications. Arrays are flat functions of the position; a bracket or initial value is already multiplied by
`np.ones(shape)`. Floats are reals. An object is identified by its name. Dictionaries are association lists in
order of insertion. The internal problem is a function `R`: `R y res` is the array of residual `res` that it
computes if the outputs of the component have the values `y`; inputs of the component stay the same during a
solve. The graph part of `define_residual` is the operation `defineResidual` of `Verif.Model.Group`; here its
outcome is an argument of the call.
-/

namespace OM

/-- `d[k] = v` -/
def dictSet {α : Type} (d : List (String × α)) (k : String) (v : α) : List (String × α) :=
  if d.any (·.1 == k) then d.map fun p => if p.1 = k then (k, v) else p else d ++ [(k, v)]

/-- `d[k]` -/
def dictGet {α : Type} (d : List (String × α)) (k : String) : Except PyErr α :=
  match d.find? (·.1 == k) with
  | some p => .ok p.2
  | none => .error .keyError

abbrev Arr := Nat → ℝ

/-- What an implicit component and its group remember: `group._root.dependencies` (the residuals), `res_out_map`,
`brackets_map`, `out_vals`, and the outputs that are `defined`. -/
structure ImplState where
  root : List String
  resOut : List (String × String)
  brackets : Option (List (String × Arr) × List (String × Arr))
  outVals : List (String × Arr)
  defined : List String
  maxiter : Nat

/-- `ImplicitComponent.__init__(maxiter)`, implicit_component.py 147-162, `Group.__init__`, group.py 160-162. -/
def ImplState.init (_maxiter : Nat) : ImplState := ⟨[], [], none, [], [], 100⟩

/-- A call `out.define_residual(res)` or `out.define_residual_bracketed(res, x1, x2)`; `graph` is the exception
raised by `replace_output_leaf_nodes` or by the type check of `register_output`, if any. -/
inductive ImplOp
  | plain (out res : String) (val : Arr) (graph : Option PyErr)
  | bracketed (out res : String) (x1 x2 : Arr) (graph : Option PyErr)

def ImplOp.out : ImplOp → String
  | .plain o _ _ _ => o
  | .bracketed o _ _ _ _ => o

def ImplOp.res : ImplOp → String
  | .plain _ r _ _ => r
  | .bracketed _ r _ _ _ => r

def ImplOp.graph : ImplOp → Option PyErr
  | .plain _ _ _ g => g
  | .bracketed _ _ _ _ g => g

/-- implicit_output.py 84-107, 130-153: the checks, and the exceptions of the graph functions. -/
def ImplState.check (s : ImplState) (op : ImplOp) : Option PyErr :=
  if op.res = op.out then some .valueError
  else if op.out ∈ s.defined then some .valueError
  else match op.graph with
    | some e => some e
    | none => if op.res ∈ s.root then some .valueError else none

/-- implicit_output.py 71-113 and 115-161. -/
def ImplState.step (s : ImplState) (op : ImplOp) : ImplState × Option PyErr :=
  match s.check op with
  | some e => (s, some e)
  | none =>
    let s1 := { s with root := s.root ++ [op.res], resOut := dictSet s.resOut op.res op.out,
                       defined := s.defined ++ [op.out] }
    match op with
    | .plain out _ val _ => ({ s1 with outVals := dictSet s1.outVals out val }, none)
    | .bracketed out _ x1 x2 _ => ({ s1 with brackets := some (dictSet [] out x1, dictSet [] out x2) }, none)

def ImplState.run (s : ImplState) (ops : List ImplOp) : ImplState := ops.foldl (fun s op => (s.step op).1) s

/-- Setting the initial values of the internal problem, implicit_component.py 104-111, with the residuals in the
order in which the loop meets them. -/
def ImplState.initial (s : ImplState) (order : List String) : Except PyErr (List (String × Arr)) :=
  order.foldlM (init := []) fun prob res => do
    let out ← dictGet s.resOut res
    if s.outVals.length = 0 then pure (dictSet prob out fun _ => 1)
    else do
      let v ← dictGet s.outVals out
      pure (dictSet prob out v)

/-- One round of the loop 226-232; the pair is `xp`, `xn`. -/
noncomputable def bisectStep (f : Arr → Arr) (s : Arr × Arr) : Arr × Arr :=
  let x : Arr := fun i => 0.5 * s.1 i + 0.5 * s.2 i
  (fun i => if 0 ≤ f x i then x i else s.1 i, fun i => if f x i < 0 then x i else s.2 i)

/-- 213-224 -/
noncomputable def bisectStart (f : Arr → Arr) (x1 x2 : Arr) : Arr × Arr :=
  (fun i => if f x2 i ≤ f x1 i then x1 i else x2 i, fun i => if f x2 i ≤ f x1 i then x2 i else x1 i)

/-- 213-234 -/
noncomputable def bisect (f : Arr → Arr) (k : Nat) (x1 x2 : Arr) : Arr :=
  let s := (bisectStep f)^[k] (bisectStart f x1 x2)
  fun i => 0.5 * s.1 i + 0.5 * s.2 i

/-- `r[out_name]` of the dictionary that `run` returns, 188-192: the loop over `res_out_map` keeps the last
residual that belongs to the output. -/
def ImplState.residual (s : ImplState) (R : (String → Arr) → String → Arr) (y : String → Arr) (out : String) : Arr :=
  match (s.resOut.filter (·.2 == out)).getLast? with
  | some p => R y p.1
  | none => fun _ => 0

/-- `solve_nonlinear`, 202-234, with the residuals in the order in which the loop meets them. -/
noncomputable def ImplState.solve (s : ImplState) (R : (String → Arr) → String → Arr) (order : List String)
    (y : String → Arr) : Except PyErr (String → Arr) :=
  order.foldlM (init := y) fun y res => do
    let out ← dictGet s.resOut res
    match s.brackets with
    | none => pure y
    | some b => do
      let x1 ← dictGet b.1 out
      let x2 ← dictGet b.2 out
      pure (Function.update y out (bisect (fun x => s.residual R (Function.update y out x) out) s.maxiter x1 x2))

/-! ## Linear solver

`ι` is the set of all entries of all outputs; `J k l` is the derivative of residual entry `k` by output entry `l`,
computed by the internal problem (`compute_totals`, trusted). -/

/-- `self.derivs`, `linearize` 258-259: the diagonal of the block of an output is the diagonal of `J`. -/
def implDerivs {ι : Type} (J : ι → ι → ℝ) (k : ι) : ℝ := J k k

/-- `solve_linear` 261-268; the pair is `d_outputs`, `d_residuals`. -/
noncomputable def implSolveLinear {ι : Type} (J : ι → ι → ℝ) (fwd : Bool) (d : (ι → ℝ) × (ι → ℝ)) :
    (ι → ℝ) × (ι → ℝ) :=
  if fwd then (fun k => d.1 k + 1 / implDerivs J k * d.2 k, d.2)
  else (d.1, fun k => d.2 k + 1 / implDerivs J k * d.1 k)

end OM
