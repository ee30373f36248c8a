import Verif.Model.Product

/-!
# Model of if_else and of outputs defined by an expression

`omtools/std/if_else.py`, `omtools/comps/pass_through_comp.py`.

Simplifications. Values are flat arrays of reals; initial values are left out, so inputs have the shape of the
expression. Sizes are positive. Errors that OpenMDAO raises when it sets up the component are those of `setup`,
errors raised when the component runs are those of `compute` and `partials`.
-/

namespace OM

structure IfElse where
  cond : String
  condShape : List Nat
  whenTrue : String
  whenFalse : String
  shape : List Nat

/-- `if_else`, if_else.py 57-77. -/
def stdIfElse (cond whenTrue whenFalse : String × List Nat) : Except PyErr IfElse :=
  if whenTrue.2 ≠ whenFalse.2 then .error .valueError
  else .ok ⟨cond.1, cond.2, whenTrue.1, whenFalse.1, whenTrue.2⟩

/-- The shape announced for the expression is the default of `Variable`, and so is that of the output of the
component, 23. -/
def IfElse.outShape (_ : IfElse) : List Nat := [1]

/-- `setup`, 14-30: OpenMDAO raises `ValueError` in `add_input` for a name added before, and in `declare_partials` for
rows that the output does not have. -/
def IfElse.setup (c : IfElse) : Except PyErr Unit :=
  if ¬ [c.cond, c.whenTrue, c.whenFalse].Nodup then .error .valueError
  else if ∃ r ∈ List.range (prodShape c.shape), prodShape c.outShape ≤ r then .error .valueError
  else .ok ()

def IfElse.ins (c : IfElse) : List (String × Nat) :=
  [(c.cond, prodShape c.condShape), (c.whenTrue, prodShape c.shape), (c.whenFalse, prodShape c.shape)]

/-- `compute`, 32-41. The truth value of an array with several entries raises. -/
noncomputable def IfElse.compute (c : IfElse) (inp : String → Nat → ℝ) : Except PyErr (Nat → ℝ) :=
  if prodShape c.condShape ≠ 1 then .error .valueError
  else .ok (if inp c.cond 0 < 0 then inp c.whenFalse else inp c.whenTrue)

/-- `compute_partials`, 43-54. The array assigned to a branch is that of its values. -/
noncomputable def IfElse.partials (c : IfElse) (inp : String → Nat → ℝ) : Except PyErr (String → Coo) :=
  if prodShape c.condShape ≠ 1 then .error .valueError
  else
    let N := prodShape c.shape
    let branch (v : Nat → ℝ) : Coo := ⟨List.range N, List.range N, npFlat N v⟩
    .ok fun name =>
      if name = c.whenTrue then branch (if inp c.cond 0 < 0 then fun _ => 0 else inp c.whenTrue)
      else if name = c.whenFalse then branch (if inp c.cond 0 < 0 then inp c.whenFalse else fun _ => 0)
      else ⟨[], [], []⟩

/-! ## `PassThroughComp` -/

/-- The component built for an output `name` after `define(expr)`, explicit_output.py 81-84; `declared` is the
shape given for the output. -/
structure PassThrough where
  name : String
  declared : List Nat
  expr : String
  exprShape : List Nat

/-- pass_through_comp.py 11-19 -/
def PassThrough.outShape (c : PassThrough) : List Nat := c.exprShape

def PassThrough.ins (c : PassThrough) : List (String × Nat) := [(c.expr, prodShape c.exprShape)]

/-- 29-32 -/
def PassThrough.compute (c : PassThrough) (inp : String → Nat → ℝ) : Nat → ℝ := inp c.expr

/-- 20-27 -/
noncomputable def PassThrough.partials (c : PassThrough) (_ : String) : Coo :=
  let N := prodShape c.exprShape
  ⟨List.range N, List.range N, List.replicate N 1⟩

end OM
