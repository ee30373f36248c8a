import Mathlib.Analysis.Calculus.FDeriv.Basic
import Mathlib.Topology.Algebra.Module.FiniteDimension
import Mathlib.Analysis.Normed.Module.FiniteDimension

/-!
# Exact Jacobians

The inputs of a component, flattened, are indexed by `κ`, its outputs by `ι`.
-/

namespace OM.Spec

/-- `J i j` is the derivative of output `i` by input `j` at `x`; every output is (totally)
differentiable at `x`. -/
def IsJacobian {κ ι : Type} [Fintype κ] (F : (κ → ℝ) → ι → ℝ) (x : κ → ℝ) (J : ι → κ → ℝ) : Prop :=
  ∀ i, HasFDerivAt (fun y => F y i)
    (∑ j, J i j • (ContinuousLinearMap.proj j : (κ → ℝ) →L[ℝ] ℝ)) x

/-- The entry `(i, j)` of the matrix that OpenMDAO assembles from the sparse description
`rows`, `cols`, `vals` of a partial derivative (entries given several times are summed). -/
def cooEntry (rows cols : List Nat) (vals : List ℝ) (i j : Nat) : ℝ :=
  ((rows.zip (cols.zip vals)).map fun p => if p.1 = i ∧ p.2.1 = j then p.2.2 else 0).sum

end OM.Spec
