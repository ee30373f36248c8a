import Mathlib.Logic.Relation
import Mathlib.Data.List.Basic

/-!
# Specification vocabulary for graphs and orders

Nothing here mentions the code: `deps u` is the list of things `u` depends on.
-/

namespace OM.Spec

/-- `u` depends directly on `v`. -/
def Edge (deps : Nat → List Nat) (u v : Nat) : Prop := v ∈ deps u

/-- `u` is `v` or depends on `v` directly or indirectly. -/
def Reach (deps : Nat → List Nat) : Nat → Nat → Prop := Relation.ReflTransGen (Edge deps)

/-- `u` depends on `v` directly or indirectly. -/
def Needs (deps : Nat → List Nat) : Nat → Nat → Prop := Relation.TransGen (Edge deps)

/-- Nothing that `r` depends on (nor `r`) depends on itself. -/
def AcyclicFrom (deps : Nat → List Nat) (r : Nat) : Prop :=
  ∀ v, Reach deps r v → ¬ Needs deps v v

/-- Every chain of dependencies `u, a₁, …, aₖ` starting at `u` has `k < n`. -/
def ChainsLt (deps : Nat → List Nat) (u n : Nat) : Prop :=
  ∀ l : List Nat, List.IsChain (Edge deps) (u :: l) → l.length < n

/-- `a` occurs in `l` at an earlier position than some occurrence of `b`. -/
def Before {α : Type} (l : List α) (a b : α) : Prop :=
  ∃ p q s, l = p ++ a :: (q ++ b :: s)

end OM.Spec
