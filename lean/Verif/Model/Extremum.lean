import Verif.Model.Reduce
import Mathlib.Analysis.SpecialFunctions.Log.Basic
import Mathlib.Analysis.SpecialFunctions.Pow.Real

/-!
# Model of the smooth maximum and minimum and of the p-norm

`omtools/std/{max,min,pnorm}.py`, `omtools/comps/{elementwise_max,elementwise_min,axiswise_max,
axiswise_min,scalar_extremum,vectorized_pnorm,vectorized_axiswise_pnorm}_comp.py`.

Simplifications. Values are flat arrays of reals, arrays are not empty, the rank is at most 12 (`alphabet`
in axiswise_max_comp.py 39) or 26 (p-norm), `rho` is a real number. `np.einsum` with the subscripts built
from the axis repeats its first operand along the axis, so that it takes at each position the entry at the
row of that position (`redRow`). `self.dKS_dg` and `self.outputs` are the state of a component; reading them
before they are set raises `AttributeError`.
-/

namespace OM

/-- `np.max` of the values in a list. -/
noncomputable def npMax : List ℝ → ℝ
  | [] => 0
  | g :: gs => gs.foldl max g

/-- `x` for a maximum, `-x` for a minimum. -/
def signed (lower : Bool) (x : ℝ) : ℝ := if lower then -x else x

/-! ## Components with state -/

/-- A component with state `σ`: `compute` and `compute_partials`. -/
structure Stateful (σ : Type) where
  init : σ
  compute : σ → (String → Nat → ℝ) → (Nat → ℝ) × σ
  partials : σ → (String → Nat → ℝ) → Except PyErr (String → Coo)

/-- What OpenMDAO may call. -/
inductive Call
  | compute (inp : String → Nat → ℝ)
  | partials (inp : String → Nat → ℝ)

/-- The state after a history of calls. `compute_partials` does not change the state of the components
below. -/
def Stateful.after {σ : Type} (c : Stateful σ) (h : List Call) : σ :=
  h.foldl (fun s call => match call with
    | .compute inp => (c.compute s inp).2
    | .partials _ => s) c.init

/-! ## Elementwise form -/

structure Elem where
  names : List String
  size : Nat
  rho : ℝ
  lower : Bool

/-- `ElementwiseMaxComp.setup`, `ElementwiseMinComp.setup`, 13-24. -/
def Elem.setup (c : Elem) : Except PyErr Unit :=
  if c.names.Nodup then .ok () else .error .valueError

def Elem.ins (c : Elem) : List (String × Nat) := c.names.map fun n => (n, c.size)

/-- elementwise_max_comp.py 31-33, elementwise_min_comp.py 31-33. -/
noncomputable def Elem.fmax (c : Elem) (inp : String → Nat → ℝ) (i : Nat) : ℝ :=
  c.names.foldl (fun m n => max m (signed c.lower (inp n i)))
    (signed c.lower (inp (c.names.headD "") i) - 1)

/-- Lines 35-37. -/
noncomputable def Elem.arg (c : Elem) (inp : String → Nat → ℝ) (i : Nat) : ℝ :=
  c.names.foldl (fun a n => a + Real.exp (c.rho * (signed c.lower (inp n i) - c.fmax inp i))) 0

/-- Line 39. -/
noncomputable def Elem.compute (c : Elem) (inp : String → Nat → ℝ) (i : Nat) : ℝ :=
  signed c.lower (c.fmax inp i + 1 / c.rho * Real.log (c.arg inp i))

/-- `compute_partials`, 41-58; everything is computed from the inputs. -/
noncomputable def Elem.partials (c : Elem) (inp : String → Nat → ℝ) (name : String) : Coo :=
  if name ∈ c.names then
    ⟨List.range c.size, List.range c.size, (List.range c.size).map fun i =>
      1 / c.arg inp i * Real.exp (c.rho * (signed c.lower (inp name i) - c.fmax inp i))⟩
  else ⟨[], [], []⟩

/-! ## Axis-wise and scalar forms -/

/-- `AxisMaxComp`, `AxisMinComp` (`axis = some …`) and `ScalarExtremumComp` (`axis = none`). -/
structure Ks where
  name : String
  shape : List Nat
  axis : Option Nat
  rho : ℝ
  lower : Bool

def Ks.size (c : Ks) : Nat := prodShape c.shape

/-- `out_shape = shape[:axis] + shape[axis + 1:]`, axiswise_max_comp.py 31; `(1,)`,
scalar_extremum_comp.py 33. -/
def Ks.outShape (c : Ks) : List Nat :=
  match c.axis with
  | some a => c.shape.take a ++ c.shape.drop (a + 1)
  | none => [1]

/-- The position of the output each input position goes to: `rows`, axiswise_max_comp.py 48-52, and the
dense partials of scalar_extremum_comp.py 35. -/
def Ks.row (c : Ks) (k : Nat) : Nat :=
  match c.axis with
  | some a => redRow c.shape [a] k
  | none => 0

/-- The positions reduced by `np.max(…, axis=axis)` and `np.sum(…, axis=axis)`. -/
def Ks.group (c : Ks) (r : Nat) : List Nat := (List.range c.size).filter fun k => c.row k = r

/-- axiswise_max_comp.py 66, axiswise_min_comp.py 65, scalar_extremum_comp.py 53-58. -/
noncomputable def Ks.gmax (c : Ks) (inp : String → Nat → ℝ) (r : Nat) : ℝ :=
  npMax ((c.group r).map fun k => signed c.lower (inp c.name k))

/-- axiswise_max_comp.py 67-72. -/
noncomputable def Ks.exponent (c : Ks) (inp : String → Nat → ℝ) (k : Nat) : ℝ :=
  Real.exp (c.rho * (signed c.lower (inp c.name k) - c.gmax inp (c.row k)))

/-- axiswise_max_comp.py 73. -/
noncomputable def Ks.summation (c : Ks) (inp : String → Nat → ℝ) (r : Nat) : ℝ :=
  ((c.group r).map (c.exponent inp)).sum

/-- axiswise_max_comp.py 74; axiswise_min_comp.py 73: `-g_max - 1/rho log(summation)`;
scalar_extremum_comp.py 62-67. -/
noncomputable def Ks.result (c : Ks) (inp : String → Nat → ℝ) (r : Nat) : ℝ :=
  signed c.lower (c.gmax inp r + 1 / c.rho * Real.log (c.summation inp r))

/-- axiswise_max_comp.py 77-83, scalar_extremum_comp.py 69-71. -/
noncomputable def Ks.dKS (c : Ks) (inp : String → Nat → ℝ) (k : Nat) : ℝ :=
  1 / (c.rho * c.summation inp (c.row k)) * (c.rho * c.exponent inp k)

/-- The sparse derivative with the given values. -/
def Ks.coo (c : Ks) (vals : Nat → ℝ) (name : String) : Coo :=
  if name = c.name then
    ⟨(List.range c.size).map c.row, List.range c.size, (List.range c.size).map vals⟩
  else ⟨[], [], []⟩

/-- The component: `compute` stores the derivatives in `self.dKS_dg`, `compute_partials` returns what is
stored. -/
noncomputable def Ks.comp (c : Ks) : Stateful (Option (Nat → ℝ)) where
  init := none
  compute _ inp := (c.result inp, some (c.dKS inp))
  partials s _ := match s with
    | none => .error .attributeError
    | some d => .ok (c.coo d)

/-! ## The functions `max` and `min` -/

inductive Extremum
  | elem (c : Elem)
  | ks (c : Ks)

/-- std/max.py 28-77, std/min.py 28-77. -/
def stdExtremum (lower : Bool) (ops : List (String × List Nat)) (axis : Option Int) (rho : ℝ) :
    Except PyErr Extremum :=
  match ops, axis with
  | [(n, shape)], some a =>
    match normAxis shape.length a with
    | none => .error .indexError
    | some k => .ok (.ks ⟨n, shape, some k, rho, lower⟩)
  | [(n, shape)], none => .ok (.ks ⟨n, shape, none, rho, lower⟩)
  | (n, shape) :: ops, none =>
    if ops = [] then .error .exception
    else if ∀ p ∈ ops, p.2 = shape then
      .ok (.elem ⟨n :: ops.map Prod.fst, prodShape shape, rho, lower⟩)
    else .error .exception
  | _, _ => .error .exception

/-! ## p-norm -/

/-- `VectorizedPnormComp` (`axes = none`) and `VectorizedAxisWisePnormComp`. -/
structure Pnorm where
  name : String
  shape : List Nat
  axes : Option (List Nat)
  p : Nat

def Pnorm.size (c : Pnorm) : Nat := prodShape c.shape

def Pnorm.outShape (c : Pnorm) : List Nat :=
  match c.axes with
  | some axes => npDelete axes c.shape
  | none => [1]

/-- vectorized_axiswise_pnorm_comp.py 76-78; dense partials of vectorized_pnorm_comp.py 43. -/
def Pnorm.row (c : Pnorm) (k : Nat) : Nat :=
  match c.axes with
  | some axes => redRow c.shape axes k
  | none => 0

def Pnorm.group (c : Pnorm) (r : Nat) : List Nat := (List.range c.size).filter fun k => c.row k = r

/-- `np.linalg.norm(x, ord=p)` of a vector. -/
noncomputable def npNorm (p : Nat) (x : List ℝ) : ℝ :=
  if p = 2 then Real.sqrt (x.map fun a => a ^ 2).sum
  else (x.map fun a => |a| ^ p).sum ^ (1 / (p : ℝ))

/-- vectorized_pnorm_comp.py 50-51, vectorized_axiswise_pnorm_comp.py 88-89. -/
noncomputable def Pnorm.result (c : Pnorm) (inp : String → Nat → ℝ) (r : Nat) : ℝ :=
  match c.axes with
  | none => npNorm c.p ((List.range c.size).map (inp c.name))
  | some axes => npSum c.shape axes (fun k => inp c.name k ^ c.p) r ^ (1 / (c.p : ℝ))

/-- vectorized_pnorm_comp.py 58-59, vectorized_axiswise_pnorm_comp.py 97-99; `out` is `self.outputs`. -/
noncomputable def Pnorm.deriv (c : Pnorm) (out : Nat → ℝ) (inp : String → Nat → ℝ) (k : Nat) : ℝ :=
  out (c.row k) ^ (1 - (c.p : ℤ)) * inp c.name k ^ (c.p - 1)

def Pnorm.coo (c : Pnorm) (vals : Nat → ℝ) (name : String) : Coo :=
  if name = c.name then
    ⟨(List.range c.size).map c.row, List.range c.size, (List.range c.size).map vals⟩
  else ⟨[], [], []⟩

/-- The component: `compute` stores the norms in `self.outputs`. -/
noncomputable def Pnorm.comp (c : Pnorm) : Stateful (Option (Nat → ℝ)) where
  init := none
  compute _ inp := (c.result inp, some (c.result inp))
  partials s inp := match s with
    | none => .error .attributeError
    | some out => .ok (c.coo (c.deriv out inp))

/-- std/pnorm.py 29-57. An integer axis is taken as a tuple of one. -/
def stdPnorm (name : String) (shape : List Nat) (p : Int) (axes : Option (List Int)) :
    Except PyErr Pnorm :=
  if p % 2 ≠ 0 ∨ p ≤ 0 then .error .exception
  else match axes with
    | none => .ok ⟨name, shape, none, p.toNat⟩
    | some ax =>
      match normAxes shape.length ax with
      | .error e => .error e
      | .ok l => .ok ⟨name, shape, some l, p.toNat⟩

end OM
