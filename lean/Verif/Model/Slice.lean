import Verif.Model.Err
import Mathlib.Data.List.Range
import Mathlib.Data.Int.Order.Basic

/-!
# Model of `slice_to_list` (`omtools/utils/slice_to_list.py`)
-/

namespace OM

/-- Number of elements of Python's `range(start, stop, step)`. -/
def rangeLen (start stop step : Int) : Nat :=
  if 0 < step then ((stop - start + step - 1) / step).toNat
  else ((start - stop - step - 1) / (-step)).toNat

/-- Python's `list(range(start, stop, step))`, `step ≠ 0`. -/
def pyRange (start stop step : Int) : List Int :=
  (List.range (rangeLen start stop step)).map fun (k : Nat) => start + (k : Int) * step

/-- The last part of `slice_to_list`, lines 22-30: `range` raises `ValueError` for step 0, `np.min`
raises `ValueError` for an empty list. -/
def checkedRange (start stop step : Int) : Except PyErr (List Int) :=
  if step = 0 then .error .valueError
  else if pyRange start stop step = [] then .error .valueError
  else if ∃ x ∈ pyRange start stop step, x < 0 then .error .valueError
  else .ok (pyRange start stop step)

/-- `slice_to_list(start, stop, step, size)`, lines 5-30. -/
def sliceToList (start stop step : Option Int) (size : Option Nat) : Except PyErr (List Int) :=
  match start, stop with
  | none, none =>
    match size with
    | none => .error .valueError
    | some n => checkedRange 0 n (step.getD 1)
  | _, some stop =>
    if stop < 0 then
      match size with
      | none => .error .typeError
      | some n => if n + stop < 0 then .error .valueError
                  else checkedRange (start.getD 0) (n + stop) (step.getD 1)
    else checkedRange (start.getD 0) stop (step.getD 1)
  | some start, none =>
    match size with
    | none => .error .typeError
    | some n => checkedRange start n (step.getD 1)

end OM
