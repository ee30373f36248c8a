import Verif.Model.Arith
import Verif.Model.Group

/-!
# Model of the operators for operands of any kind

`omtools/core/variable.py` 40-103 and 403-718, with what Python does before it calls these methods: which components
the operators ask for is said in `Verif.Model.Arith`; here any object may stand on either side.

Simplifications. Arrays have the shape of the other operand and at least one element. Numbers are Python's: for those of
NumPy, on the left of an expression, NumPy's rules apply. Objects with operators of their own are left out. The
dependencies are listed in the order of the operands, with repetitions.
-/

namespace OM

/-- An operand: an expression, a number, an array of the shape of the other operand, or any other object (a list, a
string, `None`, …). -/
inductive PyArg
  | var (name : String) (shape : List Nat)
  | const (c : Const)
  | other

inductive BinOp
  | add | sub | mul | div | pow
  deriving DecidableEq, Repr

/-- The component that `build` makes. -/
inductive BuiltComp
  | lin (o : LinOpts)
  | pow (o : PowOpts)

/-- What an operator returns: an expression with the expressions it depends on, its shape, and its `build`; or an array
of expressions. -/
inductive OpResult
  | expr (deps : List String) (shape : List Nat) (comp : Option BuiltComp)
  | array

def PyArg.deps : PyArg → List String
  | .var n _ => [n]
  | _ => []

/-- `self.shape`: that of the last operand which is an expression, and `(1,)` if there is none, variable.py 127,
409-414. -/
def opShape : PyArg → PyArg → List Nat
  | _, .var _ s => s
  | .var _ s, _ => s
  | _, _ => [1]

def PyArg.operand? : PyArg → Option Operand
  | .var n s => some (.var n s)
  | .const c => some (.const c)
  | .other => none

/-- The four classes `ElementwiseAddition`, … `ElementwiseDivision`, 403-668: if an operand is neither an expression nor
a constant, no branch sets `build`. -/
noncomputable def elementwise (op : BinOp) (a b : PyArg) : Except PyErr OpResult :=
  match a.operand?, b.operand? with
  | some x, some y =>
    let comp : Except PyErr (Option BuiltComp) := match op with
      | .add => (buildAdd x y).map (Option.map .lin)
      | .sub => (buildSub x y).map (Option.map .lin)
      | .mul => (buildMul x y).map (Option.map .pow)
      | .div => (buildDiv x y).map (Option.map .pow)
      | .pow => .ok none
    comp.map fun c => .expr (a.deps ++ b.deps) (opShape a b) c
  | _, _ => .ok (.expr (a.deps ++ b.deps) (opShape a b) none)

/-- `ElementwisePower`, 671-709: `initialize` returns `NotImplemented` for an exponent that is no constant, which
`__init__` ignores; the shape stays `(1,)` and the exponent is no dependency. -/
noncomputable def elementwisePower (n : String) (s : List Nat) : PyArg → OpResult
  | .const c => .expr [n] s (some (.pow (buildPow n s c)))
  | _ => .expr [n] [1] none

/-- `a op b`, at least one of them an expression. With an expression on the left its method is called (43-71). With a
number or another object on the left, Python tries the reflected method (73-103), which refuses all but numbers; there
is none for powers. With an array on the left, NumPy applies the operator to each of its elements. -/
noncomputable def binary : BinOp → PyArg → PyArg → Except PyErr OpResult
  | .pow, .var n s, b => .ok (elementwisePower n s b)
  | op, .var n s, b => elementwise op (.var n s) b
  | .pow, _, _ => .error .typeError
  | op, .const (.num c), b => elementwise op (.const (.num c)) b
  | _, .const (.arr _), _ => .ok .array
  | _, .other, _ => .error .typeError

/-- In a group, an expression without `build`: its dependencies are added as for any other, but `Group.setup` (group.py
90) makes no component for it, as for the results of `__getitem__`. -/
def World.unbuilt (env : GEnv) (w : World) (args : List Ref) : World :=
  args.foldl (fun w' a => w'.addDep env w.next a) (w.alloc .item (env.autoName w.next))

end OM
