import Verif.Model.Units
import Mathlib.Tactic.FieldSimp
import Mathlib.Tactic.Ring
import Mathlib.Tactic.NormNum
import Mathlib.Tactic.Linarith

/-! # Conversion of units (C96) -/

namespace OM

/-- What the magnitude `x` of a quantity in the unit `u` means in the base unit. -/
def PintUnit.means (u : PintUnit) (x : ℝ) : ℝ := u.factor * x + u.offset

theorem units_known {ureg : String → Option PintUnit} {a b : String} {u v : PintUnit} (ha : ureg a = some u)
    (hb : ureg b = some v) (hd : u.dim = v.dim) :
    units ureg a b = .ok ((v.factor + v.offset - u.offset) / u.factor) := by
  simp [units, lookupUnit, toMagnitude, ha, hb, hd]

/-- **C96**, exact: for two known units of one dimension the result is a number, and multiplying by it converts every
magnitude if and only if the units have the same offset. It always converts the magnitude one. -/
theorem c96_exact {ureg : String → Option PintUnit} {a b : String} {u v : PintUnit} (ha : ureg a = some u)
    (hb : ureg b = some v) (hd : u.dim = v.dim) :
    ∃ r, units ureg a b = .ok r ∧ u.means r = v.means 1 ∧
      ((∀ x, u.means (r * x) = v.means x) ↔ u.offset = v.offset) := by
  refine ⟨_, units_known ha hb hd, ?_, fun h => ?_, fun h x => ?_⟩
  · have := u.pos.ne'
    simp only [PintUnit.means]
    field_simp
    ring
  · have := h 0
    simpa [PintUnit.means] using this
  · have := u.pos.ne'
    simp only [PintUnit.means, h]
    field_simp
    ring

/-- **C96** for units without offset: the quotient of the factors, right for every magnitude. -/
theorem c96_factor_partial {ureg : String → Option PintUnit} {a b : String} {u v : PintUnit} (ha : ureg a = some u)
    (hb : ureg b = some v) (hd : u.dim = v.dim) (hu : u.offset = 0) (hv : v.offset = 0) :
    units ureg a b = .ok (v.factor / u.factor) ∧ 0 < v.factor / u.factor ∧
      ∀ x, u.means (v.factor / u.factor * x) = v.means x := by
  refine ⟨by rw [units_known ha hb hd, hu, hv]; simp, div_pos v.pos u.pos, fun x => ?_⟩
  have := u.pos.ne'
  simp only [PintUnit.means, hu, hv]
  field_simp

/-- **C96**: there and back is one, and conversions in a row multiply, for units without offset. -/
theorem c96_chain_partial {ureg : String → Option PintUnit} {a b c : String} {u v w : PintUnit} (ha : ureg a = some u)
    (hb : ureg b = some v) (hc : ureg c = some w) (huv : u.dim = v.dim) (hvw : v.dim = w.dim) (hu : u.offset = 0)
    (hv : v.offset = 0) (hw : w.offset = 0) :
    ∃ r s t back, units ureg a b = .ok r ∧ units ureg b c = .ok s ∧ units ureg a c = .ok t ∧
      units ureg b a = .ok back ∧ r * s = t ∧ r * back = 1 := by
  refine ⟨_, _, _, _, (c96_factor_partial ha hb huv hu hv).1, (c96_factor_partial hb hc hvw hv hw).1,
    (c96_factor_partial ha hc (huv.trans hvw) hu hw).1, (c96_factor_partial hb ha huv.symm hv hu).1, ?_, ?_⟩
  · have := u.pos.ne'
    have := v.pos.ne'
    field_simp
  · have := u.pos.ne'
    have := v.pos.ne'
    field_simp

/-- **C96**: exactly when a number is returned, and the exceptions otherwise. -/
theorem c96_refused (ureg : String → Option PintUnit) (a b : String) :
    ((∃ r, units ureg a b = .ok r) ↔ ∃ u v, ureg a = some u ∧ ureg b = some v ∧ u.dim = v.dim) ∧
    (units ureg a b = .error .undefinedUnit ↔ ureg a = none ∨ ureg b = none) ∧
    (units ureg a b = .error .dimensionality ↔ ∃ u v, ureg a = some u ∧ ureg b = some v ∧ u.dim ≠ v.dim) := by
  cases hb : ureg b with
  | none => simp [units, lookupUnit, hb]
  | some v =>
    cases ha : ureg a with
    | none => simp [units, lookupUnit, hb, ha]
    | some u =>
      by_cases hd : v.dim = u.dim
      · simp [units, lookupUnit, hb, ha, toMagnitude, hd]
      · simp [units, lookupUnit, hb, ha, toMagnitude, hd, Ne.symm hd, Ne.symm (Ne.symm hd), eq_comm (a := u.dim)]

/-- **C96** is violated by every pair of units with different offsets: the returned number converts only the
magnitude one. -/
theorem c96_violated {ureg : String → Option PintUnit} {a b : String} {u v : PintUnit} (ha : ureg a = some u)
    (hb : ureg b = some v) (hd : u.dim = v.dim) (ho : u.offset ≠ v.offset) {r : ℝ} (hr : units ureg a b = .ok r) :
    ∀ x, u.means (r * x) = v.means x → x = 1 := by
  intro x hx
  rw [units_known ha hb hd] at hr
  cases hr
  have := u.pos.ne'
  simp only [PintUnit.means] at hx
  field_simp at hx
  have h : (v.offset - u.offset) * (x - 1) = 0 := by linarith
  rcases mul_eq_zero.1 h with h | h
  · exact absurd (sub_eq_zero.1 h).symm ho
  · exact sub_eq_zero.1 h

/-- Lengths and temperatures. -/
noncomputable def someUnits : String → Option PintUnit
  | "m" => some ⟨0, 1, 0, by norm_num⟩
  | "km" => some ⟨0, 1000, 0, by norm_num⟩
  | "cm" => some ⟨0, 1 / 100, 0, by norm_num⟩
  | "kelvin" => some ⟨1, 1, 0, by norm_num⟩
  | "degC" => some ⟨1, 1, 273.15, by norm_num⟩
  | _ => none

/-- A kilometre has 100000 centimetres. -/
example : units someUnits "cm" "km" = .ok 100000 := by
  rw [(c96_factor_partial (u := ⟨0, 1 / 100, 0, by norm_num⟩) (v := ⟨0, 1000, 0, by norm_num⟩) rfl rfl rfl rfl rfl).1]
  norm_num

example : ∃ r s t back, units someUnits "cm" "m" = .ok r ∧ units someUnits "m" "km" = .ok s ∧
    units someUnits "cm" "km" = .ok t ∧ units someUnits "m" "cm" = .ok back ∧ r * s = t ∧ r * back = 1 :=
  c96_chain_partial (u := ⟨0, 1 / 100, 0, by norm_num⟩) (v := ⟨0, 1, 0, by norm_num⟩)
    (w := ⟨0, 1000, 0, by norm_num⟩) rfl rfl rfl rfl rfl rfl rfl rfl

/-- From degrees Celsius to kelvin: 274.15, right for one degree only. -/
example : units someUnits "kelvin" "degC" = .ok 274.15 := by
  rw [units_known (u := ⟨1, 1, 0, by norm_num⟩) (v := ⟨1, 1, 273.15, by norm_num⟩) rfl rfl rfl]
  norm_num

example {r : ℝ} (hr : units someUnits "kelvin" "degC" = .ok r) (x : ℝ)
    (hx : (⟨1, 1, 0, by norm_num⟩ : PintUnit).means (r * x) = (⟨1, 1, 273.15, by norm_num⟩ : PintUnit).means x) : x = 1 :=
  c96_violated (u := ⟨1, 1, 0, by norm_num⟩) (v := ⟨1, 1, 273.15, by norm_num⟩) rfl rfl rfl
    (by norm_num) hr x hx

example : units someUnits "m" "kelvin" = .error .dimensionality :=
  (c96_refused _ _ _).2.2.2 ⟨⟨0, 1, 0, by norm_num⟩, ⟨1, 1, 0, by norm_num⟩, rfl, rfl, by norm_num⟩

end OM
