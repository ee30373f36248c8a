import Verif.Spec.Jacobian
import Mathlib.Data.Fintype.Sigma

/-!
# Components with named inputs

A component has inputs with a name and a size, and one output. Its partial derivative by one input is
handed to OpenMDAO as a sparse matrix.
-/

namespace OM

/-- A partial derivative as given to `declare_partials` / `partials[…] = …`. -/
structure Coo where
  rows : List Nat
  cols : List Nat
  vals : List ℝ

namespace Spec

/-- The entry of the matrix assembled by OpenMDAO. -/
def entry (s : Coo) (i j : Nat) : ℝ := cooEntry s.rows s.cols s.vals i j

/-- All positions of all inputs. -/
abbrev Slot (ins : List (String × Nat)) := Σ k : Fin ins.length, Fin (ins[k].2)

/-- Inputs by name, from one vector of all input values. -/
def inputsOf (ins : List (String × Nat)) (y : Slot ins → ℝ) (name : String) (j : Nat) : ℝ :=
  match (List.finRange ins.length).find? (fun k => ins[k].1 == name) with
  | none => 0
  | some k => if h : j < ins[k].2 then y ⟨k, ⟨j, h⟩⟩ else 0

/-- The vector of all input values. -/
def slots (ins : List (String × Nat)) (inp : String → Nat → ℝ) : Slot ins → ℝ :=
  fun s => inp ins[s.1].1 s.2

/-- The declared partial derivatives are the exact Jacobian of the output (of size `n`) with respect to
all entries of all inputs jointly, at the given inputs; the declared positions exist. -/
structure ExactPartials (ins : List (String × Nat)) (n : Nat)
    (compute : (String → Nat → ℝ) → Nat → ℝ) (partials : String → Coo) (inp : String → Nat → ℝ) :
    Prop where
  jac : IsJacobian (fun (y : Slot ins → ℝ) (i : Fin n) => compute (inputsOf ins y) i) (slots ins inp)
    (fun i s => entry (partials ins[s.1].1) i s.2)
  cols : ∀ p ∈ ins, ∀ c ∈ (partials p.1).cols, c < p.2
  rows : ∀ p ∈ ins, ∀ r ∈ (partials p.1).rows, r < n

/-- Axes counted from the front; or all the axes, those counted from the end before those counted from the front. -/
def FrontOrAll (rank : Nat) (axes : List Int) : Prop :=
  (∀ a ∈ axes, 0 ≤ a) ∨
    (axes.length = rank ∧ ∀ a ∈ axes, ∀ b ∈ axes, a < 0 → 0 ≤ b → a + (rank : Int) < b)

end Spec
end OM
