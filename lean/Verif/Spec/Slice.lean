import Mathlib.Data.List.Basic
import Mathlib.Data.Int.Order.Basic

/-!
# What Python's slicing selects

Taken from the language reference ("The slices of s from i to j with step k"): the indices
`i, i+k, i+2k, ...` that stop before `j` is reached, where negative bounds are counted from the end,
bounds are then clamped to the sequence, and missing bounds are the ends in the direction of `k`.
-/

namespace OM.Spec

/-- Lower bound of a slice on a sequence of length `n`. -/
def sliceStart (n : Int) (start : Option Int) (step : Int) : Int :=
  match start with
  | none => if 0 < step then 0 else n - 1
  | some i =>
    let j := if i < 0 then n + i else i
    if 0 < step then max 0 (min n j) else max (-1) (min (n - 1) j)

/-- Upper bound of a slice on a sequence of length `n`. -/
def sliceStop (n : Int) (stop : Option Int) (step : Int) : Int :=
  match stop with
  | none => if 0 < step then n else -1
  | some i =>
    let j := if i < 0 then n + i else i
    if 0 < step then max 0 (min n j) else max (-1) (min (n - 1) j)

/-- `l` is the list of indices `a, a+k, a+2k, …` that lie before `b` in the direction of `k`. -/
structure IsRange (a b k : Int) (l : List Int) : Prop where
  elems : ∀ (i : Nat) (h : i < l.length), l[i] = a + i * k
  before : ∀ x ∈ l, if 0 < k then x < b else b < x
  complete : if 0 < k then b ≤ a + l.length * k else a + l.length * k ≤ b

/-- The list of indices selected by `start:stop:step` on a sequence of length `n`. -/
def Selects (n : Nat) (start stop : Option Int) (step : Int) (l : List Int) : Prop :=
  IsRange (sliceStart n start step) (sliceStop n stop step) step l

end OM.Spec
