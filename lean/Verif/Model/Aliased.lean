import Verif.Model.Arith

/-!
# Array constants are objects

`omtools/core/variable.py` 403-661 and `power_combination_comp.py` 73-93: the operators keep the array given by the
user, not a copy (`constant=expr2`, `coeff=expr2`), except where they compute a new one (`constant=-expr2`,
`coeff=1 / expr2`). The options of an OpenMDAO component hold the same object, so two components made with one array
share it, with each other and with the user.

Simplifications: those of `Verif.Model.Arith`. An array of exponents (`x ** a`, of which the component keeps views of
the rows) is left out, as are components built a second time.
-/

namespace OM
open Classical

/-- The arrays of the program, by identity: contents (flat), and the first identity not in use. -/
structure Arrays where
  data : Nat → Nat → ℝ
  next : Nat

/-- An operand: an expression, a number, or an array object. -/
inductive ROperand
  | var (name : String) (shape : List Nat)
  | num (c : ℝ)
  | obj (id : Nat)

/-- The operand with the contents of the array. -/
def ROperand.read (data : Nat → Nat → ℝ) : ROperand → Operand
  | .var n s => .var n s
  | .num c => .const (.num c)
  | .obj id => .const (.arr (data id))

inductive ArithOp
  | add
  | sub
  | mul
  | div

/-- The component of an operator. -/
inductive ArithComp
  | lin (c : Lin)
  | pow (c : Pow)

/-- Python's operator (variable.py 46-103), then `build` and `setup` of the component; `none`: no expression. -/
noncomputable def ArithOp.comp (op : ArithOp) (a b : Operand) : Except PyErr (Option ArithComp) :=
  let lin (r : Except PyErr (Option LinOpts)) : Except PyErr (Option ArithComp) :=
    match r with
    | .error e => .error e
    | .ok none => .ok none
    | .ok (some o) => o.setup.map fun c => some (.lin c)
  let pow (r : Except PyErr (Option PowOpts)) : Except PyErr (Option ArithComp) :=
    match r with
    | .error e => .error e
    | .ok none => .ok none
    | .ok (some o) => o.setup.map fun c => some (.pow c)
  match op with
  | .add => lin (pyOperator buildAdd a b)
  | .sub => lin (pyOperator buildSub a b)
  | .mul => pow (pyOperator buildMul a b)
  | .div => pow (pyOperator buildDiv a b)

/-- The array held as `constant` or `coeff` in the options. -/
def ArithComp.array? : ArithComp → Option (Nat → ℝ)
  | .lin c => match c.constant with | .arr a => some a | .num _ => none
  | .pow c => match c.coeff with | .arr a => some a | .num _ => none

/-- The component when the array in its options has the given contents. -/
def ArithComp.withArray (c : ArithComp) (a : Nat → ℝ) : ArithComp :=
  match c with
  | .lin c => .lin { c with constant := .arr a }
  | .pow c => .pow { c with coeff := .arr a }

/-- A component with the identity of the array in its options, if there is one. -/
structure Held where
  comp : ArithComp
  slot : Option Nat

/-- One call. Calls that make no component (an array on the left, two numbers) are no part of the programs below. The array is the user's one (`constant=expr2`, variable.py 453 and `coeff=expr2`, 586), or a new one
(`-expr2`, 520 and `1 / expr2`, 656). -/
noncomputable def ArithOp.call (op : ArithOp) (a b : ROperand) (s : Arrays) : Except PyErr (Arrays × Held) :=
  match op.comp (a.read s.data) (b.read s.data) with
  | .error e => .error e
  | .ok none => .error .attributeError
  | .ok (some c) =>
    match c.array? with
    | none => .ok (s, ⟨c, none⟩)
    | some v =>
      match op, b with
      | .add, .obj id | .mul, .obj id => .ok (s, ⟨c, some id⟩)
      | _, _ => .ok (⟨Function.update s.data s.next v, s.next + 1⟩, ⟨c, some s.next⟩)

/-- A call with its operands. -/
abbrev ArithCall := ArithOp × ROperand × ROperand

/-- All the calls of a program. -/
noncomputable def arithCalls : Arrays → List ArithCall → Except PyErr (Arrays × List Held)
  | s, [] => .ok (s, [])
  | s, (op, a, b) :: calls =>
    match op.call a b s with
    | .error e => .error e
    | .ok (s', c) => (arithCalls s' calls).map fun r => (r.1, c :: r.2)

/-- The component at the present contents of the arrays. -/
def Held.now (h : Held) (data : Nat → Nat → ℝ) : ArithComp :=
  match h.slot with
  | none => h.comp
  | some id => h.comp.withArray (data id)

/-- `compute`. -/
noncomputable def ArithComp.compute (c : ArithComp) (inp : String → Nat → ℝ) : Except PyErr (Nat → ℝ) :=
  match c with
  | .lin c => .ok (c.compute inp)
  | .pow c => c.compute inp

/-- A use of the `k`-th component: OpenMDAO runs it, or asks for its partials. -/
inductive ArithUse
  | compute (k : Nat) (inp : String → Nat → ℝ)
  | partials (k : Nat) (inp : String → Nat → ℝ)

/-- The arrays after asking for the partials of a component: `value *= …` changes the array in place
(power_combination_comp.py 79-81). -/
noncomputable def Held.linearize (h : Held) (inp : String → Nat → ℝ) (data : Nat → Nat → ℝ) : Nat → Nat → ℝ :=
  match h.slot, h.now data with
  | some id, .pow c =>
    match (c.mutate inp).coeff with
    | .arr a => Function.update data id a
    | .num _ => data
  | _, _ => data

noncomputable def useArith (comps : List Held) (data : Nat → Nat → ℝ) : ArithUse → Nat → Nat → ℝ
  | .compute _ _ => data
  | .partials k inp =>
    match comps[k]? with
    | none => data
    | some h => h.linearize inp data

/-- The arrays after a sequence of uses. -/
noncomputable def usesArith (comps : List Held) (data : Nat → Nat → ℝ) (us : List ArithUse) : Nat → Nat → ℝ :=
  us.foldl (useArith comps) data

end OM
