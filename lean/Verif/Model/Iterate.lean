import Verif.Model.Indexing

/-!
# Loops over variables

`Variable` (variable.py 23-400) defines `__getitem__` and neither `__iter__` nor `__len__`, so Python's older protocol
applies: `for e in x`, `list(x)` and `a, b = x` call `x[0]`, `x[1]`, ... until `IndexError` is raised; any other exception
reaches the user.

Simplification: `calls` bounds the number of calls that are followed.
-/

namespace OM

/-- How a loop over a variable ends. -/
inductive LoopEnd
  | stopped
  | raised (e : PyErr)
  /-- the number of calls did not suffice to tell -/
  | goesOn
  deriving DecidableEq

/-- `for e in x`, from `x[i]` on: the variable afterwards, what the loop has seen, and how it ended. -/
def iterate : (calls : Nat) → IVar → (i : Nat) → IVar × List IndexedExpr × LoopEnd
  | 0, v, _ => (v, [], .goesOn)
  | calls + 1, v, i =>
    match getItem v (.one (.int i)) with
    | (v1, .ok ex) =>
      let r := iterate calls v1 (i + 1)
      (r.1, ex :: r.2.1, r.2.2)
    | (v1, .error e) => (v1, [], if e = .indexError then .stopped else .raised e)

/-- `y_1, ..., y_k = x`: Python asks for `k + 1` elements and raises `ValueError` unless it gets `k` and then the end. -/
def unpack (v : IVar) (k : Nat) : Except PyErr (List IndexedExpr) :=
  match iterate (k + 1) v 0 with
  | (_, l, .stopped) => if l.length = k then .ok l else .error .valueError
  | (_, _, .raised e) => .error e
  | (_, _, .goesOn) => .error .valueError

end OM
