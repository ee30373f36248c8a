import Verif.Model.Conditional
import Verif.Props.Group

/-! # C77: the component for conditional models -/

namespace OM

/-- **C77** is violated: whatever the condition and the branches, `setup` of the component raises. For
objects it should accept, it calls `set` with three arguments. -/
theorem c77_never_set_up (w : World) (shape : Ref → List Nat) (o : SetOrder Ref) (limit : Nat) (c t f : Ref) :
    ∃ e, condInputs w shape o limit c t f = .error e := by
  unfold condInputs
  split
  · exact ⟨_, rfl⟩
  split
  · exact ⟨_, rfl⟩
  split
  · exact ⟨_, rfl⟩
  split
  · exact ⟨_, rfl⟩
  split <;> exact ⟨_, rfl⟩

/-- **C77**, what holds: what has to be refused is refused, with the exception that says so. -/
theorem c77_refuses_partial (w : World) (shape : Ref → List Nat) (o : SetOrder Ref) (limit : Nat) (c t f : Ref) :
    ((w.kind c = .input ∨ w.kind t = .input ∨ w.kind f = .input) →
      condInputs w shape o limit c t f = .error .typeError) ∧
    (w.kind c ≠ .input → w.kind t ≠ .input → w.kind f ≠ .input → shape t ≠ shape f →
      condInputs w shape o limit c t f = .error .valueError) ∧
    (w.kind c ≠ .input → w.kind t ≠ .input → w.kind f ≠ .input → shape t = shape f →
      condInputs w shape o limit c t f = .error .typeError ∨
      condInputs w shape o limit c t f = .error .recursionError) := by
  unfold condInputs
  refine ⟨?_, ?_, ?_⟩
  · rintro (h | h | h)
    · rw [if_pos h]
    · rw [if_pos h]; split <;> rfl
    · rw [if_pos h]; split <;> [rfl; (split <;> rfl)]
  · intro h1 h2 h3 h4
    rw [if_neg h1, if_neg h2, if_neg h3, if_pos h4]
  · intro h1 h2 h3 h4
    rw [if_neg h1, if_neg h2, if_neg h3, if_neg (not_not.2 h4)]
    split
    · exact Or.inl rfl
    · exact Or.inr rfl

/-- Condition and branches as in `ex_conditional`: `2*x - 8`, `2*x` and `3*y` of two declared inputs. -/
example : condInputs (final demoGEnv [.declareInput "x", .declareInput "y", .combine [1], .combine [1], .combine [2]])
    (fun _ => [1]) demoEnv.ov 100 3 4 5 = .error .typeError := by decide +kernel

end OM
