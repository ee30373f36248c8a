import Verif.Model.Product

/-!
# Model of cross products

`omtools/std/cross.py`, `omtools/comps/cross_product_comp.py`.

Simplifications. Values are flat arrays of reals; initial values are left out. Errors raised when the
component is set up, or its partials are computed, are raised when the expression is made. The slices of
lines 35-53 count a negative axis from the end of the ten letters, so that `np.einsum` raises unless the subscript
string has, by accident, one letter for each axis; then the letter `y` may name another axis than the one meant.
`declare_partials` is taken to accept a position that is listed twice.
-/

namespace OM

/-- `np.cross` of two vectors of length 3. -/
noncomputable def cross3 (a b : Nat → ℝ) : Nat → ℝ
  | 0 => a 1 * b 2 - a 2 * b 1
  | 1 => a 2 * b 0 - a 0 * b 2
  | _ => a 0 * b 1 - a 1 * b 0

/-- `np.eye(3)[ind, :]` -/
noncomputable def eye3 (ind m : Nat) : ℝ := if ind = m then 1 else 0

structure Cross where
  n0 : String
  n1 : String
  shape : List Nat
  axis : Nat
  /-- the axis that the subscript strings call `y` -/
  label : Nat

/-- A bound of a slice of a sequence of length `len`, as resolved by Python. -/
def sliceBound (len : Nat) (a : Int) : Nat := if a < 0 then (a + len).toNat else min a.toNat len

/-- `cross`, std/cross.py 22-46, and the subscript strings of cross_product_comp.py 35-53. For the axis -1,
`shape[axis + 1:]` is all of the shape; then the arrays of 95-160 are larger than the partials declared, and
`partials[…] = …` raises `ValueError`. -/
def stdCross (n0 : String) (shape0 : List Nat) (n1 : String) (shape1 : List Nat) (axis : Int) :
    Except PyErr Cross :=
  if shape0 ≠ shape1 then .error .exception
  else
    match normAxis shape0.length axis with
    | none => .error .indexError
    | some ax =>
      if shape0.getD ax 0 ≠ 3 then .error .exception
      else
        let rank := sliceBound shape0.length axis + (shape0.length - sliceBound shape0.length (axis + 1))
        let before := sliceBound 10 axis
        let after := sliceBound 10 rank - before
        if before + 1 + after ≠ shape0.length then .error .valueError
        else if axis = -1 then .error .valueError
        else .ok ⟨n0, n1, shape0, ax, before⟩

def Cross.size (c : Cross) : Nat := prodShape c.shape
def Cross.ins (c : Cross) : List (String × Nat) := [(c.n0, c.size), (c.n1, c.size)]
def Cross.setup (c : Cross) : Except PyErr Unit := setup2 c.n0 c.n1

/-- `shape[:axis] + shape[axis + 1:]`, cross_product_comp.py 35. -/
def Cross.base (c : Cross) : List Nat := c.shape.take c.axis ++ c.shape.drop (c.axis + 1)

/-- The flat position of the entry with component `p` along the axis and `idx` along the others. -/
def Cross.pos (c : Cross) (idx : List Nat) (p : Nat) : Nat :=
  ravel c.shape (idx.take c.axis ++ p :: idx.drop c.axis)

/-- `np.cross(a, b, axisa=axis, axisb=axis, axisc=axis)`, 81-93 -/
noncomputable def Cross.compute (c : Cross) (inp : String → Nat → ℝ) (r : Nat) : ℝ :=
  let full := unravel c.shape r
  let idx := full.take c.axis ++ full.drop (c.axis + 1)
  cross3 (fun m => inp c.n0 (c.pos idx m)) (fun m => inp c.n1 (c.pos idx m)) (full.getD c.axis 0)

/-- The axes without `axis` first, then two axes of length 3: the order of all arrays of the partials. -/
def Cross.entries (c : Cross) : List (List Nat × Nat × Nat) :=
  (cartesian (c.base.map List.range)).flatMap fun idx =>
    (List.range 3).flatMap fun y => (List.range 3).map fun z => (idx, y, z)

/-- The positions of all entries of `indices`, by the letters other than `y`, and by `y`. -/
def Cross.others (c : Cross) : List (List Nat) :=
  cartesian ((c.shape.take c.label ++ c.shape.drop (c.label + 1)).map List.range)

def Cross.at (c : Cross) (idx : List Nat) (y : Nat) : Nat :=
  ravel c.shape (idx.take c.label ++ y :: idx.drop c.label)

/-- `np.einsum('…y…,z->……yz', indices, ones).flatten()`, 41-46, 55-59, 68-72 -/
def Cross.rows (c : Cross) : List Nat :=
  c.others.flatMap fun idx =>
    (List.range (c.shape.getD c.label 0)).flatMap fun y => (List.range 3).map fun _ => c.at idx y

/-- `np.einsum('…y…,z->……zy', indices, ones).flatten()`, 48-53, 61-65, 74-78 -/
def Cross.cols (c : Cross) : List Nat :=
  c.others.flatMap fun idx =>
    (List.range 3).flatMap fun _ => (List.range (c.shape.getD c.label 0)).map fun y => c.at idx y

/-- cross_product_comp.py 95-160: the sum of three arrays, each a cross product with a unit vector. -/
noncomputable def Cross.partials (c : Cross) (inp : String → Nat → ℝ) (name : String) : Coo :=
  if name = c.n0 then
    ⟨c.rows, c.cols, c.entries.map fun t => ((List.range 3).map fun ind =>
      cross3 (eye3 ind) (fun m => inp c.n1 (c.pos t.1 m)) t.2.1 * eye3 ind t.2.2).sum⟩
  else
    ⟨c.rows, c.cols, c.entries.map fun t => ((List.range 3).map fun ind =>
      cross3 (fun m => inp c.n0 (c.pos t.1 m)) (eye3 ind) t.2.1 * eye3 ind t.2.2).sum⟩

end OM
