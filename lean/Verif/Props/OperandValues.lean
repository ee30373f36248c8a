import Verif.Props.Arith

/-! # What the operands of C26 mean, in plain terms

`c26_add`, `c26_sub` and `c26_linear_combination` speak about constants through the helper
`Const.at` and about coefficients through `getScalarsList`. Here the same is said without helpers of
the model: a number counts at every position, an array at its own position, one coefficient for all
terms. -/

namespace OM
open Spec

/-- **C26**: the values `c26_add` and `c26_sub` speak about. -/
theorem c26_operands (inp : String → Nat → ℝ) :
    (∀ n s i, Operand.value inp (.var n s) i = inp n i) ∧
    (∀ x i, Operand.value inp (.const (.num x)) i = x) ∧
    (∀ a i, Operand.value inp (.const (.arr a)) i = a i) :=
  ⟨fun _ _ _ => rfl, fun _ _ => rfl, fun _ _ => rfl⟩

/-- **C26** for a variable and an array: the sum and both differences, entry by entry. -/
theorem c26_with_array {n : String} {s : List Nat} {a : Nat → ℝ} (inp : String → Nat → ℝ) :
    (∀ {o c}, pyOperator buildAdd (.var n s) (.const (.arr a)) = .ok (some o) → o.setup = .ok c →
      ∀ i, c.compute inp i = inp n i + a i) ∧
    (∀ {o c}, pyOperator buildSub (.var n s) (.const (.arr a)) = .ok (some o) → o.setup = .ok c →
      ∀ i, c.compute inp i = inp n i - a i) :=
  ⟨fun hb hs i => (c26_add hb hs inp).1 i, fun hb hs i => (c26_sub hb hs inp).1 i⟩

/-- **C26** for a component with one coefficient for all terms, and one with a list of them; the
constant a number or an array. -/
theorem c26_combination_plain {s : List Nat} {names : List String} (inp : String → Nat → ℝ) :
    (∀ (k x : ℝ) {c}, (LinOpts.mk s names (.one k) (.num x)).setup = .ok c →
      ∀ i, c.compute inp i = x + (names.map fun n => k * inp n i).sum) ∧
    (∀ (k : ℝ) (a : Nat → ℝ) {c}, (LinOpts.mk s names (.one k) (.arr a)).setup = .ok c →
      ∀ i, c.compute inp i = a i + (names.map fun n => k * inp n i).sum) ∧
    (∀ (ks : List ℝ) (x : ℝ) {c}, (LinOpts.mk s names (.list ks) (.num x)).setup = .ok c →
      ∀ i, c.compute inp i = x + ((names.zip ks).map fun t => t.2 * inp t.1 i).sum) ∧
    (∀ (ks : List ℝ) (a : Nat → ℝ) {c}, (LinOpts.mk s names (.list ks) (.arr a)).setup = .ok c →
      ∀ i, c.compute inp i = a i + ((names.zip ks).map fun t => t.2 * inp t.1 i).sum) := by
  have key : ∀ (k : ℝ) (i : Nat) (l : List String),
      ((l.zip (List.replicate l.length k)).map fun t => t.2 * inp t.1 i) =
        l.map fun n => k * inp n i := by
    intro k i l
    induction l with
    | nil => rfl
    | cons n l ih => simpa [List.replicate_succ] using ih
  refine ⟨fun k x c h i => ?_, fun k a c h i => ?_, fun ks x c h i => ?_, fun ks a c h i => ?_⟩
  · rw [(c26_linear_combination h inp).1 i, ← key k i names]; rfl
  · rw [(c26_linear_combination h inp).1 i, ← key k i names]; rfl
  · rw [(c26_linear_combination h inp).1 i]; rfl
  · rw [(c26_linear_combination h inp).1 i]; rfl

/-- `x - array`, where the array differs from position to position. -/
example : ∃ o c, pyOperator buildSub (.var "x" [3]) (.const (.arr fun i => (i : ℝ))) = .ok (some o) ∧
    o.setup = .ok c ∧ ∀ inp i, c.compute inp i = inp "x" i - i := by
  refine ⟨_, _, rfl, rfl, fun inp i => ?_⟩
  exact (c26_with_array (s := [3]) inp).2 rfl rfl i

/-- Two terms, coefficients 2 and -1, a constant array. -/
example : ∃ c, (LinOpts.mk [3] ["x", "y"] (.list [2, -1]) (.arr fun i => (i : ℝ))).setup = .ok c ∧
    ∀ inp i, c.compute inp i = i + (2 * inp "x" i + (-1 * inp "y" i + 0)) := by
  refine ⟨_, by simp [LinOpts.setup, getScalarsList]; rfl, fun inp i => ?_⟩
  exact (c26_combination_plain (s := [3]) (names := ["x", "y"]) inp).2.2.2 [2, -1] _
    (by simp [LinOpts.setup, getScalarsList]) i

end OM
