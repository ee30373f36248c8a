import Mathlib.Data.Real.Basic

/-!
# Conversion of units

`utils/units.py`, a wrapper of the library pint.

Trusted about pint: a unit has a dimension, a positive factor and an offset, and the magnitude `x` of a quantity means
`factor * x + offset` of the base unit of its dimension (the offset is zero except for units like the degree Celsius);
a registry either knows a name or raises `UndefinedUnitError`; `1. * unit` is the quantity of magnitude one, also for
units with an offset; `to` raises `DimensionalityError` for another dimension and otherwise gives the magnitude that
means the same.

Simplifications: dimensions are numbers; logarithmic units are left out.
-/

namespace OM

/-- What pint knows about a unit. -/
structure PintUnit where
  dim : Nat
  factor : ℝ
  offset : ℝ
  pos : 0 < factor

inductive UnitErr
  | undefinedUnit
  | dimensionality
  deriving DecidableEq

/-- `ureg.__getattr__(name)` for a registry `ureg`, lines 7 and 8. -/
def lookupUnit (ureg : String → Option PintUnit) (name : String) : Except UnitErr PintUnit :=
  match ureg name with
  | none => .error .undefinedUnit
  | some u => .ok u

/-- `Quantity.to(v).magnitude` for a quantity of magnitude `x` in the unit `u`. -/
noncomputable def toMagnitude (x : ℝ) (u v : PintUnit) : Except UnitErr ℝ :=
  if u.dim = v.dim then .ok ((u.factor * x + u.offset - v.offset) / v.factor)
  else .error .dimensionality

/-- `units(unit_to, unit_from)`, units.py 6-9. -/
noncomputable def units (ureg : String → Option PintUnit) (unitTo unitFrom : String) : Except UnitErr ℝ :=
  match lookupUnit ureg unitFrom with
  | .error e => .error e
  | .ok u =>
    match lookupUnit ureg unitTo with
    | .error e => .error e
    | .ok v => toMagnitude 1 u v

end OM
