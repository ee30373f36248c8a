import Verif.Model.Numpy
import Verif.Spec.Slice

/-!
# What indexing with a key selects

NumPy's basic indexing, with integers kept as an axis of length one. `ravel` is the row-major position of
a multi-index.
-/

namespace OM.Spec

/-- The indices selected by one item of a key on an axis of length `n`. -/
def ItemSelects (n : Nat) : KeyItem → List Nat → Prop
  | .int k, l => 0 ≤ k ∧ k < n ∧ l = [k.toNat]
  | .slice a b s, l => Selects n a b (s.getD 1) (l.map Int.ofNat)

/-- One list of indices per axis, for a key with as many items as there are axes. -/
inductive KeySelects : List Nat → List KeyItem → List (List Nat) → Prop
  | nil : KeySelects [] [] []
  | cons {n e l ns es ls} : ItemSelects n e l → KeySelects ns es ls →
      KeySelects (n :: ns) (e :: es) (l :: ls)

/-- `idx` lists, in row-major order of the selected block, the row-major positions in an array of shape
`shape` of the selected elements: the element of the block at the multi-index `j` is the one of the
array at the multi-index `(sels₀[j₀], sels₁[j₁], …)`. -/
structure IsBlock (shape : List Nat) (sels : List (List Nat)) (idx : List Nat) : Prop where
  size : idx.length = prodShape (sels.map List.length)
  entry : ∀ j, InBounds (sels.map List.length) j →
    idx[ravel (sels.map List.length) j]? =
      some (ravel shape (List.zipWith (fun l i => l.getD i 0) sels j))

end OM.Spec
