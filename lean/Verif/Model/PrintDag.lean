import Verif.Model.Graph

/-!
# What `print_dag` and `repr` show

`Variable.print_dag`, variable.py 385-397, and the `__repr__` methods of variable.py 458-463, 525-530, 594-599, 665-670,
713-718, input.py 36-42, indep.py 42-48, explicit_output.py 168-173 and implicit_output.py 163-168.

Simplifications: of the line printed for an object its indentation and the object are kept; the text in `repr` other than
the shape is left out. `limit` is the number of calls that Python's recursion limit leaves room for. Dimensions are
printed by Python's `str`.
-/

namespace OM

/-- A line printed by `print_dag`: for an object, or the remark that it has no dependencies. -/
inductive DagLine
  | node (indent : Nat) (x : Ref)
  | leaf (x : Ref)
  deriving DecidableEq

/-- `print_dag(depth, indent)`, variable.py 385-397. -/
def printDag (g : Graph) : (limit : Nat) → (depth : Int) → (indent : Nat) → Ref → Except SetupError (List DagLine)
  | 0, _, _, _ => .error .recursionError
  | limit + 1, depth, indent, x =>
    let own := DagLine.node indent x :: if (g x).length = 0 then [.leaf x] else []
    let depth' := if depth > 0 then depth - 1 else depth
    if depth' ≠ 0 then
      match (g x).mapM fun y => printDag g limit depth' (indent + 1) y with
      | .error e => .error e
      | .ok ls => .ok (own ++ ls.flatten)
    else .ok own

/-- `str` of a dimension. -/
def strDim (n : Nat) : List Char := Nat.toDigits 10 n

/-- The shape in `repr` of inputs, independent variables, outputs and subsystems. -/
def reprShape (shape : List Nat) : List Char :=
  (shape.foldl (fun s d => s ++ (strDim d ++ [','])) ['(']) ++ [')']

/-- The shape in `repr` of sums, differences, products, quotients and powers. -/
def reprShapeArith (shape : List Nat) : List Char :=
  shape.foldl (fun s d => s ++ (strDim d ++ [',']) ++ [')']) ['(']

end OM
