import Verif.Model.Exec

/-!
# The value of a variable, by recursive evaluation

No order of execution is involved here.
-/

namespace OM.Spec

/-- `Eval N comp init n v`: among the components `comp u` with `N u`, starting from the values `init`
of the variables that none of them writes, the variable named `n` has the value `v`. -/
inductive Eval {V : String → Type} (N : Nat → Prop) (comp : Nat → Comp V) (init : Store V) :
    (n : String) → V n → Prop
  | given (n : String) (h : ∀ u, N u → n ∉ (comp u).writes) : Eval N comp init n (init n)
  | computed (u : Nat) (n : String) (hu : N u) (hn : n ∈ (comp u).writes)
      (x : (i : Fin (comp u).reads.length) → V (comp u).reads[i])
      (hx : ∀ i : Fin (comp u).reads.length, Eval N comp init (comp u).reads[i] (x i)) :
      Eval N comp init n ((comp u).f x n)

/-- Recursive evaluation of the expression `u`: an input has its given value, any other expression is
its operation applied to the values of its arguments. -/
inductive EvalExpr {α : Type} (isInput : Nat → Prop) (args : Nat → List Nat) (op : Nat → List α → α)
    (val : Nat → α) : Nat → α → Prop
  | input (u : Nat) (h : isInput u) : EvalExpr isInput args op val u (val u)
  | apply (u : Nat) (h : ¬ isInput u) (xs : List α) (hlen : xs.length = (args u).length)
      (hx : ∀ (i : Nat) (h1 : i < (args u).length) (h2 : i < xs.length),
        EvalExpr isInput args op val (args u)[i] xs[i]) :
      EvalExpr isInput args op val u (op u xs)

end OM.Spec
