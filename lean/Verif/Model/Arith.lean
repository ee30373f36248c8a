import Verif.Model.Err
import Verif.Model.Numpy
import Verif.Spec.Component
import Mathlib.Analysis.SpecialFunctions.Pow.Real

/-!
# Model of the arithmetic operators

`omtools/core/variable.py` 40-103 and 403-718, `omtools/comps/linearcombination_comp.py`,
`omtools/comps/arithmetic_comps/power_combination_comp.py`, `omtools/utils/process_options.py`.

Simplifications. Values are flat arrays of reals; `**` is the real power, which agrees with NumPy's for a
positive base and for an integer exponent (NumPy gives nan otherwise; the theorems are stated for these
cases). Array constants have the shape of the other operand. Initial values (`in_vals`) are left out.
Number constants that are not real are left out, as are integer arrays as
coefficient of a product.
-/

namespace OM
open Classical

/-- A constant operand: a number or an array (flat). -/
inductive Const
  | num (c : ℝ)
  | arr (c : Nat → ℝ)

/-- The constant at a position, after broadcasting. -/
def Const.at : Const → Nat → ℝ
  | .num c, _ => c
  | .arr c, i => c i

noncomputable def Const.neg : Const → Const
  | .num c => .num (-c)
  | .arr c => .arr fun i => -c i

/-- An operand of an arithmetic operator. -/
inductive Operand
  | var (name : String) (shape : List Nat)
  | const (c : Const)

/-- Values for the option `coeffs`: a number or a list. -/
inductive Scalars
  | one (c : ℝ)
  | list (l : List ℝ)

/-- `get_scalars_list`, process_options.py 20-28. -/
def getScalarsList : Scalars → List String → List ℝ
  | .one c, names => List.replicate names.length c
  | .list l, _ => l

/-! ## LinearCombinationComp -/

structure LinOpts where
  shape : List Nat
  inNames : List String
  coeffs : Scalars
  constant : Const

/-- A component after `setup`. -/
structure Lin where
  size : Nat
  terms : List (String × ℝ)
  constant : Const

/-- `LinearCombinationComp.setup`, 25-56: `add_input` of OpenMDAO raises `ValueError` for a name added before. -/
def LinOpts.setup (o : LinOpts) : Except PyErr Lin :=
  let terms := o.inNames.zip (getScalarsList o.coeffs o.inNames)
  if (terms.map Prod.fst).Nodup then .ok ⟨prodShape o.shape, terms, o.constant⟩
  else .error .valueError

/-- `LinearCombinationComp.compute`, 58-66. -/
noncomputable def Lin.compute (c : Lin) (inp : String → Nat → ℝ) : Nat → ℝ :=
  c.terms.foldl (fun out t i => out i + t.2 * inp t.1 i) c.constant.at

/-- The inputs added by `setup` with their sizes. -/
def Lin.ins (c : Lin) : List (String × Nat) := c.terms.map fun t => (t.1, c.size)

/-- The partials declared by `setup`, lines 51-56. -/
def Lin.partials (c : Lin) (name : String) : Coo :=
  match c.terms.find? (fun t => t.1 == name) with
  | none => ⟨[], [], []⟩
  | some t => ⟨List.range c.size, List.range c.size, List.replicate c.size t.2⟩

/-! ## Sums and differences -/

/-- `ElementwiseAddition.initialize`, variable.py 408-454. `none`: no `build` is set. -/
noncomputable def buildAdd : Operand → Operand → Except PyErr (Option LinOpts)
  | .var n1 s1, .var n2 s2 =>
    if s1 = s2 then .ok (some ⟨s1, [n1, n2], .one 1, .num 0⟩) else .error .valueError
  | .const c, .var n s => .ok (some ⟨s, [n], .one 1, c⟩)
  | .var n s, .const c => .ok (some ⟨s, [n], .one 1, c⟩)
  | .const _, .const _ => .ok none

/-- `ElementwiseSubtraction.initialize`, variable.py 471-521. -/
noncomputable def buildSub : Operand → Operand → Except PyErr (Option LinOpts)
  | .var n1 s1, .var n2 s2 =>
    if s1 = s2 then .ok (some ⟨s1, [n1, n2], .list [1, -1], .num 0⟩) else .error .valueError
  | .const c, .var n s => .ok (some ⟨s, [n], .one (-1), c⟩)
  | .var n s, .const c => .ok (some ⟨s, [n], .one 1, c.neg⟩)
  | .const _, .const _ => .ok none

/-- What Python makes of `a op b`, variable.py 46-103: with an array on the left, NumPy's own operator
runs and applies `op` to each of its elements, which gives an array of expressions rather than an
expression: `none`. -/
def pyOperator {β : Type} (build : Operand → Operand → Except PyErr (Option β)) :
    Operand → Operand → Except PyErr (Option β)
  | .const (.arr _), _ => .ok none
  | a, b => build a b

/-! ## PowerCombinationComp -/

/-- The exponent of one factor: a number, or a row of an exponent array, broadcast over the leading
axis. -/
inductive Power
  | num (p : ℝ)
  | row (size : Nat) (p : Nat → ℝ)

def Power.at : Power → Nat → ℝ
  | .num p, _ => p
  | .row size p, i => p (i % size)

/-- Values for the option `powers`. -/
inductive Powers
  | one (p : ℝ)
  | list (l : List ℝ)
  | array (shape : List Nat) (p : Nat → ℝ)

/-- `get_scalars_list`, process_options.py 20-28; `list(array)` lists the rows of an array of higher
rank. -/
def getPowersList : Powers → List String → List Power
  | .one p, names => List.replicate names.length (.num p)
  | .list l, _ => l.map .num
  | .array [] _, _ => []
  | .array (n :: []) p, _ => (List.range n).map fun k => .num (p k)
  | .array (n :: m :: ms) p, _ => (List.range n).map fun k =>
      .row (prodShape (m :: ms)) fun j => p (k * prodShape (m :: ms) + j)

structure PowOpts where
  shape : List Nat
  inNames : List String
  powers : Powers
  coeff : Const

/-- A component after `setup`; `coeff` is the object held in the options. -/
structure Pow where
  size : Nat
  terms : List (String × Power)
  coeff : Const

/-- `PowerCombinationComp.array_setup`, 31-57. The inputs are added for all names. -/
def PowOpts.setup (o : PowOpts) : Except PyErr Pow :=
  if o.inNames.Nodup then
    .ok ⟨prodShape o.shape, o.inNames.zip (getPowersList o.powers o.inNames), o.coeff⟩
  else .error .valueError

/-- The condition of line 67, for an input with a zero: `power < 0` for a number; for a row with more
than one element its truth value is ambiguous. -/
noncomputable def zeroCheck : Power → Option PyErr
  | .num p => if p < 0 then some .systemExit else none
  | .row size p => if size = 1 then (if p 0 < 0 then some .systemExit else none) else some .valueError

/-- `PowerCombinationComp.compute`, 59-71. -/
noncomputable def Pow.compute (c : Pow) (inp : String → Nat → ℝ) : Except PyErr (Nat → ℝ) :=
  c.terms.foldlM (fun (out : Nat → ℝ) (t : String × Power) =>
    match (if ∃ i < c.size, inp t.1 i = 0 then zeroCheck t.2 else none) with
    | some e => .error e
    | none => .ok (fun i => out i * (inp t.1 i) ^ (t.2.at i) : Nat → ℝ)) c.coeff.at

def Pow.ins (c : Pow) : List (String × Nat) := c.terms.map fun t => (t.1, c.size)

/-- Lines 79-81 of `compute_partials`: `value *= …` changes the array held in the options in place if
`coeff` is an array. -/
noncomputable def Pow.mutate (c : Pow) (inp : String → Nat → ℝ) : Pow :=
  match c.coeff with
  | .num _ => c
  | .arr a => { c with
      coeff := .arr (c.terms.foldl (fun v t i => v i * inp t.1 i ^ t.2.at i) a) }

/-- Lines 83-91: the loop over the factors for the derivative by `name`. -/
noncomputable def Pow.deriv (c : Pow) (inp : String → Nat → ℝ) (name : String) : Nat → ℝ :=
  c.terms.foldl (fun d t i => d i *
    ((if name = t.1 then t.2.at i else 1) *
      inp t.1 i ^ (if name = t.1 then t.2.at i - 1 else t.2.at i))) c.coeff.at

/-- `PowerCombinationComp.compute_partials`, 73-93: the new state and the partials. -/
noncomputable def Pow.computePartials (c : Pow) (inp : String → Nat → ℝ) : Pow × (String → Coo) :=
  let c' := c.mutate inp
  (c', fun name => ⟨List.range c.size, List.range c.size,
    (List.range c.size).map (c'.deriv inp name)⟩)

/-! ## Products, quotients and powers -/

/-- `ElementwiseMultiplication.initialize`, variable.py 538-590. -/
noncomputable def buildMul : Operand → Operand → Except PyErr (Option PowOpts)
  | .var n1 s1, .var n2 s2 =>
    if s1 = s2 then .ok (some ⟨s1, [n1, n2], .one 1, .num 1⟩) else .error .valueError
  | .const c, .var n s => .ok (some ⟨s, [n], .one 1, c⟩)
  | .var n s, .const c => .ok (some ⟨s, [n], .one 1, c⟩)
  | .const _, .const _ => .ok none

/-- `ElementwiseDivision.initialize`, variable.py 607-661. `if expr2 == 0` raises `ValueError` for an
array of more than one element. -/
noncomputable def buildDiv : Operand → Operand → Except PyErr (Option PowOpts)
  | .var n1 s1, .var n2 s2 =>
    if s1 = s2 then .ok (some ⟨s1, [n1, n2], .list [1, -1], .num 1⟩) else .error .valueError
  | .const c, .var n s => .ok (some ⟨s, [n], .one (-1), c⟩)
  | .var n s, .const (.num c) =>
    if c = 0 then .error .valueError else .ok (some ⟨s, [n], .one 1, .num (1 / c)⟩)
  | .var n s, .const (.arr c) =>
    if prodShape s = 1 then
      (if c 0 = 0 then .error .valueError else .ok (some ⟨s, [n], .one 1, .arr fun i => 1 / c i⟩))
    else .error .valueError
  | .const _, .const _ => .ok none

/-- `ElementwisePower.initialize`, variable.py 678-709, for exponents that are numbers or arrays of the
same shape. -/
noncomputable def buildPow (name : String) (shape : List Nat) : Const → PowOpts
  | .num p => ⟨shape, [name], .one p, .num 1⟩
  | .arr p => ⟨shape, [name], .array shape p, .num 1⟩

/-- `__neg__`, variable.py 40-41. -/
noncomputable def buildNeg (name : String) (shape : List Nat) : Except PyErr (Option PowOpts) :=
  buildMul (.var name shape) (.const (.num (-1)))

end OM
