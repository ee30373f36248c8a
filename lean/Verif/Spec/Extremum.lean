import Verif.Model.Extremum
import Mathlib.Order.Bounds.Basic

/-! # Smooth extrema; derivatives and histories -/

namespace OM.Spec

/-- `out` is a smooth maximum (minimum) of the values `l`: not below the maximum (above the minimum), and
off by at most `log n / rho`. -/
def Smooth (lower : Bool) (rho : ℝ) (l : List ℝ) (out : ℝ) : Prop :=
  match lower with
  | false => ∀ M, IsGreatest {g | g ∈ l} M → M ≤ out ∧ out ≤ M + Real.log l.length / rho
  | true => ∀ M, IsLeast {g | g ∈ l} M → out ≤ M ∧ M - Real.log l.length / rho ≤ out

/-- The entries of every row of the Jacobian are non-negative and add up to one. -/
structure Convex (ins : List (String × Nat)) (n : Nat) (partials : String → Coo) : Prop where
  nonneg : ∀ (s : Slot ins) (i : Nat), 0 ≤ entry (partials ins[s.1].1) i s.2
  total : ∀ i < n, ∑ s : Slot ins, entry (partials ins[s.1].1) i s.2 = 1

/-- The derivatives returned for given inputs do not depend on the history. -/
def PointOnly {σ : Type} (c : Stateful σ) : Prop :=
  ∀ (h h' : List Call) (inp : String → Nat → ℝ), c.partials (c.after h) inp = c.partials (c.after h') inp

/-- The inputs of the last evaluation in a history. -/
def lastInputs (h : List Call) : Option (String → Nat → ℝ) :=
  h.foldl (fun l call => match call with
    | .compute inp => some inp
    | .partials _ => l) none

end OM.Spec
