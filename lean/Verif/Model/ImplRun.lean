import Verif.Model.Exec

/-!
# Model of the calls of OpenMDAO to an `ImplicitComponent`

`omtools/comps/implicit_component.py` 165-200, 236-259: the values of the component are copied to the internal problem,
the internal problem is run or differentiated.

Simplifications. The internal problem is a list of explicit components (its group is an `omtools` group, see
`Verif.Model.Exec`). A setup gives every variable of the internal problem some value. `Problem.compute_totals` solves the
system of total derivatives with the partials at the values that the variables have; it does not run the model.
-/

namespace OM

/-- The internal problem: its components in the order of execution, and the names of the inputs and outputs of the
implicit component, which no component of the internal problem computes. -/
structure ImplProb (V : String → Type) where
  order : List Ref
  comp : Ref → Comp V
  given : List String

/-- `_set_values(inputs, outputs)`, 165-174; `x` are the values of the inputs and outputs of the component. -/
def ImplProb.setValues {V : String → Type} (p : ImplProb V) (x s : Store V) : Store V :=
  fun n => if n ∈ p.given then x n else s n

/-- `prob[out] = b` -/
def Store.set {V : String → Type} (s : Store V) (out : String) (b : V out) : Store V :=
  fun n => if h : n = out then h ▸ b else s n

/-- A call to the component with the values `x` of its inputs and outputs. -/
inductive ImplCall (V : String → Type)
  /-- `apply_nonlinear`, 194-200 -/
  | residuals (x : Store V)
  /-- `run(inputs, outputs, out_name, bracket)`, 182-192, from `solve_nonlinear` -/
  | trial (x : Store V) (out : String) (bracket : V out)
  /-- `linearize`, 236-247: `compute_totals` uses the values that the internal problem has after this call -/
  | linearize (x : Store V)

/-- The values in the internal problem after a call. -/
def ImplProb.after {V : String → Type} (p : ImplProb V) (s : Store V) : ImplCall V → Store V
  | .residuals x => runAll (p.order.map p.comp) (p.setValues x s)
  | .trial x out b => runAll (p.order.map p.comp) ((p.setValues x s).set out b)
  | .linearize x => p.setValues x s

end OM
