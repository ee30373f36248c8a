import Verif.Model.Err
import Verif.Model.Numpy
import Verif.Spec.Component
import Mathlib.Analysis.SpecialFunctions.Log.Base
import Mathlib.Analysis.SpecialFunctions.Trigonometric.Inverse
import Mathlib.Analysis.SpecialFunctions.Trigonometric.Arctan

/-!
# Model of the 18 elementwise functions

`omtools/comps/{sin,cos,tan,arcsin,arccos,arctan,sinh,cosh,tanh,exp,log,log10,sec,cosec,cotan,sech,cosech,
cotanh}comp.py`: `setup`, `compute`, `compute_partials` (the same lines in all files up to the formulas).

Simplifications. Values are reals. An array assigned to an output of the same size is reshaped by
OpenMDAO; an array assigned to a sparse partial must have the shape of `rows`, otherwise OpenMDAO raises
`ValueError`.
-/

namespace OM

inductive Unary
  | sin | cos | tan | arcsin | arccos | arctan | sinh | cosh | tanh | exp | log | log10
  | sec | cosec | cotan | sech | cosech | cotanh
  deriving DecidableEq, Repr

/-- The formula in `compute`. -/
noncomputable def Unary.f : Unary → ℝ → ℝ
  | .sin, x => Real.sin x
  | .cos, x => Real.cos x
  | .tan, x => Real.tan x
  | .arcsin, x => Real.arcsin x
  | .arccos, x => Real.arccos x
  | .arctan, x => Real.arctan x
  | .sinh, x => Real.sinh x
  | .cosh, x => Real.cosh x
  | .tanh, x => Real.tanh x
  | .exp, x => Real.exp x
  | .log, x => Real.log x
  | .log10, x => Real.logb 10 x
  | .sec, x => 1 / Real.cos x
  | .cosec, x => 1 / Real.sin x
  | .cotan, x => 1 / Real.tan x
  | .sech, x => 1 / Real.cosh x
  | .cosech, x => 1 / Real.sinh x
  | .cotanh, x => 1 / Real.tanh x

/-- The formula in `compute_partials`. -/
noncomputable def Unary.df : Unary → ℝ → ℝ
  | .sin, x => Real.cos x
  | .cos, x => -Real.sin x
  | .tan, x => 1 / Real.cos x ^ 2
  | .arcsin, x => 1 / Real.sqrt (1 - x ^ 2)
  | .arccos, x => -1 / Real.sqrt (1 - x ^ 2)
  | .arctan, x => 1 / (1 + x ^ 2)
  | .sinh, x => Real.cosh x
  | .cosh, x => Real.sinh x
  | .tanh, x => 1 - Real.tanh x ^ 2
  | .exp, x => Real.exp x
  | .log, x => 1 / x
  | .log10, x => 1 / (Real.log 10 * x)
  | .sec, x => (Real.sin x / Real.cos x) * (1 / Real.cos x)
  | .cosec, x => -1 * (Real.cos x / (Real.sin x * Real.sin x))
  | .cotan, x => -1 / Real.sin x ^ 2
  | .sech, x => -1 * Real.tanh x * (1 / Real.cosh x)
  | .cosech, x => -1 * ((1 / Real.tanh x) * (1 / Real.sinh x))
  | .cotanh, x => 1 - (1 / Real.tanh x) ^ 2

/-- Whether the array of derivatives is flattened before it is assigned. In arcsincomp.py it is not; in
sechcomp.py only the second factor is, so that the product of an array of shape `shape` and one of shape
`(size,)` is formed. -/
def Unary.flattens : Unary → Bool
  | .arcsin | .sech => false
  | _ => true

noncomputable def Unary.compute (u : Unary) (inName : String) (inp : String → Nat → ℝ) : Nat → ℝ :=
  fun i => u.f (inp inName i)

/-- `compute_partials`. Without flattening, only for rank one has the array the shape of `rows`: for
arcsin its shape is `shape`; for sech the product of shapes `shape` and `(size,)` either cannot be formed
(`ValueError`) or has at least the rank of `shape`. -/
noncomputable def Unary.partials (u : Unary) (inName : String) (shape : List Nat)
    (inp : String → Nat → ℝ) : Except PyErr Coo :=
  if u.flattens || shape.length == 1 then
    .ok ⟨List.range (prodShape shape), List.range (prodShape shape),
      (List.range (prodShape shape)).map fun i => u.df (inp inName i)⟩
  else .error .valueError

end OM
