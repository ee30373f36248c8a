import Verif.Model.Slice
import Mathlib.Algebra.BigOperators.Group.List.Basic
import Mathlib.Data.List.Forall2

/-!
# The parts of NumPy used for indexing: shapes, row-major order, `ravel_multi_index`, `meshgrid`, basic
slicing

Arrays are kept flat (row-major, "C" order), with their shape beside them.
-/

namespace OM

/-- `np.prod(shape)`. -/
def prodShape (shape : List Nat) : Nat := shape.prod

/-- Position of a multi-index in row-major order. -/
def ravel : List Nat → List Nat → Nat
  | _ :: ns, i :: is => i * prodShape ns + ravel ns is
  | _, _ => 0

/-- The multi-index at a position in row-major order (`np.unravel_index`). -/
def unravel : List Nat → Nat → List Nat
  | [], _ => []
  | _ :: ns, k => k / prodShape ns :: unravel ns (k % prodShape ns)

/-- `idx` is a multi-index of an array of shape `shape`. -/
def InBounds (shape idx : List Nat) : Prop := List.Forall₂ (· < ·) idx shape

/-- All multi-indices that take their components from the given lists, last component fastest: the
entries of `np.meshgrid(*ls, indexing='ij')` read in row-major order. -/
def cartesian {α : Type} : List (List α) → List (List α)
  | [] => [[]]
  | l :: ls => l.flatMap fun a => (cartesian ls).map (a :: ·)

/-- `np.ravel_multi_index(np.meshgrid(*ls, indexing='ij'), shape).flatten()`: `ValueError` if the
number of axes is wrong or an index is out of bounds. -/
def ravelGrid (shape : List Nat) (ls : List (List Int)) : Except PyErr (List Nat) :=
  if ls.length ≠ shape.length then .error .valueError
  else if ∃ p ∈ ls.zip shape, ∃ i ∈ p.1, i < 0 ∨ (p.2 : Int) ≤ i then .error .valueError
  else .ok ((cartesian ls).map fun idx => ravel shape (idx.map Int.toNat))

/-- Clamping of a slice bound on an axis of length `n`: CPython's `PySlice_AdjustIndices`. -/
def npClamp (n : Nat) (k i : Int) : Int :=
  if i < 0 then max (i + n) (if k < 0 then -1 else 0) else min i (if k < 0 then n - 1 else n)

def npStart (n : Nat) (k : Int) : Option Int → Int
  | some i => npClamp n k i
  | none => if k < 0 then n - 1 else 0

def npStop (n : Nat) (k : Int) : Option Int → Int
  | some i => npClamp n k i
  | none => if k < 0 then -1 else n

/-- `range(*slice(start, stop, step).indices(n))`: what slicing an axis of length `n` selects. -/
def npSlice (n : Nat) (start stop step : Option Int) : List Nat :=
  (pyRange (npStart n (step.getD 1) start) (npStop n (step.getD 1) stop) (step.getD 1)).map Int.toNat

/-- One item of a key: an integer or a slice. -/
inductive KeyItem
  | int (k : Int)
  | slice (start stop step : Option Int)
  deriving DecidableEq, Repr

/-- A key: one item, or a tuple of items. -/
inductive Key
  | one (e : KeyItem)
  | tuple (es : List KeyItem)
  deriving DecidableEq, Repr

/-- Shape of `val[key]` for an array of the given shape (basic indexing): integers drop their axis,
missing items keep theirs. Raises `IndexError` for too many items or an integer out of range, and
`ValueError` for a slice with step 0. -/
def npIndexShape : List Nat → List KeyItem → Except PyErr (List Nat)
  | ns, [] => .ok ns
  | [], _ :: _ => .error .indexError
  | n :: ns, .int k :: es =>
    if -(n : Int) ≤ k ∧ k < n then npIndexShape ns es else .error .indexError
  | n :: ns, .slice a b s :: es =>
    if s = some 0 then .error .valueError
    else (npIndexShape ns es).map fun r => (npSlice n a b s).length :: r

end OM
