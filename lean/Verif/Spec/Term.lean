import Verif.Model.Compile
import Verif.Spec.Reduce
import Verif.Props.Unary
import Verif.Props.Reduce
import Verif.Props.Rotmat
import Verif.Props.Axes
import Verif.Props.Pnorm
import Verif.Props.EinsumSparse

/-!
# What a call means

The shape and the entries, by multi-index, of the result of a call of an operator or function of the package,
as mathematics: nothing here refers to components. Entries are written with the operands' entries;
`val u` is the array of object `u`, flattened row by row.
-/

namespace OM.Spec

/-- The axis named by `a`; negative numbers count from the end. -/
def axisOf (rank : Nat) (a : Int) : Nat := (if a < 0 then a + (rank : Int) else a).toNat

/-- The axes named by a tuple. -/
def axesOf (rank : Nat) (ax : List Int) : List Nat := ax.map (axisOf rank)

/-- `log Σ exp (ρ x) / ρ`, and for a minimum `- log Σ exp (-ρ x) / ρ`. -/
noncomputable def logSumExp (lower : Bool) (rho : ℝ) (l : List ℝ) : ℝ :=
  if lower then -(Real.log (l.map fun x => Real.exp (-(rho * x))).sum / rho)
  else Real.log (l.map fun x => Real.exp (rho * x)).sum / rho

end OM.Spec

namespace OM
open Spec

section
variable (shape : Ref → List Nat)

/-- The axes of the operands of an einsum, with labels and lengths. -/
def labelledAxes (as : List Ref) (labels : List (List Char)) : List (Char × Nat) :=
  (labels.zip as).flatMap fun p => p.1.zip (shape p.2)

/-- The number of values of a label: the greatest length of an axis with it. -/
def labelLength (as : List Ref) (labels : List (List Char)) (ch : Char) : Nat :=
  (((labelledAxes shape as labels).filter fun x => x.1 = ch).map Prod.snd).foldr max 1

/-- The shape of the result of an arithmetic operator: that of the operand that is an expression. -/
def Arg.shape2 : Arg → Arg → List Nat
  | .ref u, _ => shape u
  | .const _, .ref u => shape u
  | .const _, .const _ => []

/-- The shape of the result. -/
def Term.outShape : Term → List Nat
  | .add a b | .sub a b | .mul a b | .div a b => Arg.shape2 shape a b
  | .pow a _ | .neg a | .unary _ a => shape a
  | .sum as none | .average as none =>
    match as with
    | [] => []
    | [_] => [1]
    | a :: _ :: _ => shape a
  | .sum as (some ax) | .average as (some ax) =>
    match as with
    | [] => []
    | a :: _ => npDelete (axesOf (shape a).length ax) (shape a)
  | .matmat a b =>
    match shape a, shape b with
    | m :: _ :: _, [_, p] => [m, p]
    | m :: _ :: _, [_] => [m, 1]
    | _, _ => []
  | .matvec a _ => (shape a).take 1
  | .outer a b => shape a ++ shape b
  | .dot a _ axis =>
    if (shape a).length = 1 then [1]
    else match axis with
      | some ax => npDelete [axisOf (shape a).length ax] (shape a)
      | none => []
  | .inner a b axes =>
    if (shape a).length = 1 ∧ (shape b).length = 1 then [1]
    else match axes with
      | some (a0, a1) => npDelete (axesOf (shape a).length a0) (shape a) ++
          npDelete (axesOf (shape b).length a1) (shape b)
      | none => []
  | .cross a _ _ => shape a
  | .rotmat a _ => if shape a = [1] then [3, 3] else shape a ++ [3, 3]
  | .transpose a => (shape a).reverse
  | .reorder a lhs rhs => rhs.map fun ch => (shape a).getD (lhs.idxOf ch) 0
  | .reshape _ s => s
  | .expand _ s _ => s
  | .extremum _ as axis _ =>
    match as, axis with
    | [], _ => []
    | [_], none => [1]
    | [a], some ax => npDelete [axisOf (shape a).length ax] (shape a)
    | a :: _ :: _, _ => shape a
  | .pnorm a _ axes =>
    match axes with
    | none => [1]
    | some ax => npDelete (axesOf (shape a).length ax) (shape a)
  | .einsum as labels out _ => if out = [] then [1] else out.map (labelLength shape as labels)

variable (val : Ref → Nat → ℝ)

/-- The entry of object `u` at a multi-index. -/
def entryAt (u : Ref) (idx : List Nat) : ℝ := val u (ravel (shape u) idx)

/-- The entry of an operand of an arithmetic operator, with result of shape `s`: a number at every index. -/
def Arg.entry (s : List Nat) : Arg → List Nat → ℝ
  | .ref u, idx => entryAt shape val u idx
  | .const (.num c), _ => c
  | .const (.arr c), idx => c (ravel s idx)

/-- All entries of object `u`. -/
def allEntries (u : Ref) : List ℝ := (List.range (prodShape (shape u))).map (val u)

/-- The entries of `u` whose multi-index becomes `idx` when `axes` are left out. -/
def entriesOver (u : Ref) (axes : List Int) (idx : List Nat) : List ℝ :=
  fibreValues (shape u) (axesOf (shape u).length axes) (val u) idx

/-- `Σ_k u[k] v[k]` for vectors. -/
noncomputable def vectorProduct (a b : Ref) : ℝ :=
  ∑ k ∈ Finset.range (prodShape (shape a)), val a k * val b k

/-- The entry of the result at a multi-index. -/
noncomputable def Term.entry (c : Term) (idx : List Nat) : ℝ :=
  match c with
  | .add a b => a.entry shape val (Arg.shape2 shape a b) idx + b.entry shape val (Arg.shape2 shape a b) idx
  | .sub a b => a.entry shape val (Arg.shape2 shape a b) idx - b.entry shape val (Arg.shape2 shape a b) idx
  | .mul a b => a.entry shape val (Arg.shape2 shape a b) idx * b.entry shape val (Arg.shape2 shape a b) idx
  | .div a b => a.entry shape val (Arg.shape2 shape a b) idx / b.entry shape val (Arg.shape2 shape a b) idx
  | .pow a p => entryAt shape val a idx ^ p
  | .neg a => -entryAt shape val a idx
  | .unary f a => f.named (entryAt shape val a idx)
  | .sum as axes =>
    match as, axes with
    | [a], none => (allEntries shape val a).sum
    | as, none => (as.map fun a => entryAt shape val a idx).sum
    | as, some ax => (as.map fun a => (entriesOver shape val a ax idx).sum).sum
  | .average as axes =>
    match as, axes with
    | [a], none => mean (allEntries shape val a)
    | as, none => mean (as.map fun a => entryAt shape val a idx)
    | as, some ax => mean (as.map fun a => mean (entriesOver shape val a ax idx))
  | .matmat a b =>
    ∑ k ∈ Finset.range ((shape a).getD 1 0),
      entryAt shape val a (idx.getD 0 0 :: k :: List.replicate ((shape a).length - 2) 0) *
        entryAt shape val b (if (shape b).length = 1 then [k] else [k, idx.getD 1 0])
  | .matvec a b =>
    ∑ k ∈ Finset.range ((shape a).getD 1 0),
      entryAt shape val a (idx.getD 0 0 :: k :: List.replicate ((shape a).length - 2) 0) * entryAt shape val b [k]
  | .outer a b =>
    entryAt shape val a (idx.take (shape a).length) * entryAt shape val b (idx.drop (shape a).length)
  | .dot a b axis =>
    if (shape a).length = 1 then vectorProduct shape val a b
    else match axis with
      | some ax => (fibreValues (shape a) [axisOf (shape a).length ax] (fun k => val a k * val b k) idx).sum
      | none => 0
  | .inner a b axes =>
    if (shape a).length = 1 ∧ (shape b).length = 1 then vectorProduct shape val a b
    else match axes with
      | some (a0, a1) =>
        let l0 := axesOf (shape a).length a0
        let l1 := axesOf (shape b).length a1
        let free := (npDelete l0 (shape a)).length
        ((fibre (shape a) l0 (idx.take free)).map fun k =>
          (((fibre (shape b) l1 (idx.drop free)).filter fun l =>
            l0.map (fun x => k.getD x 0) = l1.map (fun x => l.getD x 0)).map fun l =>
              entryAt shape val a k * entryAt shape val b l).sum).sum
      | none => 0
  | .cross a b axis =>
    let k := axisOf (shape a).length axis
    let m := idx.getD k 0
    entryAt shape val a (idx.set k ((m + 1) % 3)) * entryAt shape val b (idx.set k ((m + 2) % 3)) -
      entryAt shape val a (idx.set k ((m + 2) % 3)) * entryAt shape val b (idx.set k ((m + 1) % 3))
  | .rotmat a axis =>
    let free := idx.length - 2
    rotation axis (if shape a = [1] then val a 0 else entryAt shape val a (idx.take free))
      (Fin.ofNat 3 (idx.getD free 0)) (Fin.ofNat 3 (idx.getD (free + 1) 0))
  | .transpose a => entryAt shape val a idx.reverse
  | .reorder a lhs rhs => entryAt shape val a (lhs.map fun ch => idx.getD (rhs.idxOf ch) 0)
  | .reshape a s => val a (ravel s idx)
  | .expand a _ indices =>
    match indices with
    | none => val a 0
    | some (lhs, rhs) =>
      if shape a = [1] then val a 0 else entryAt shape val a (lhs.map fun ch => idx.getD (rhs.idxOf ch) 0)
  | .extremum lower as axis rho =>
    match as, axis with
    | [a], none => logSumExp lower rho (allEntries shape val a)
    | [a], some ax => logSumExp lower rho (entriesOver shape val a [ax] idx)
    | as, _ => logSumExp lower rho (as.map fun a => entryAt shape val a idx)
  | .pnorm a p axes =>
    match axes with
    | none => Spec.pnorm p.toNat (allEntries shape val a)
    | some ax => Spec.pnorm p.toNat (entriesOver shape val a ax idx)
  | .einsum as labels out _ =>
    ((indices ((summed labels out).map (labelLength shape as labels))).map fun q =>
      (List.zipWith (fun a ls => entryAt shape val a (List.zipWith
        (fun ch n => min (value (out ++ summed labels out) (idx.take out.length ++ q) ch) (n - 1)) ls (shape a)))
          as labels).prod).sum

/-- Wherever `a` is an operand, it has a label of the result. -/
def SharesLabels (as : List Ref) (labels : List (List Char)) (out : List Char) (a : Ref) : Prop :=
  ∀ p ∈ labels.zip as, p.2 = a → ∃ ch ∈ p.1, ch ∈ out

/-- Where the result is defined and differentiable, for the uses for which the package is right (see C27, C29,
C30, C35, C38, C39, C41, C45): no array constants as factors, no zero denominators; functions within their domains, arcsin and
sech of vectors only; no average over an empty tuple of axes; no negative axes in `inner` (unless all
axes of the operand are contracted and the negative ones are the first) or, unless its operands have ten axes or the axis is
-11, in `cross`; subscripts without blanks, one for each axis;
smooth extrema of non-empty arrays with positive `rho`; norms that are not zero; in an einsum, letters, axes that are
not empty, no new operand after a repeated one, enough letters not used, and for sparse partials no broadcasting and
the operands that share labels with the result first. -/
def Term.Defined (c : Term) : Prop :=
  match c with
  | .mul a b => (∀ x, a ≠ .const (.arr x)) ∧ ∀ x, b ≠ .const (.arr x)
  | .div a b => (∀ x, a ≠ .const (.arr x)) ∧ (∀ x, b ≠ .const (.arr x)) ∧
      ∀ idx, InBounds (Arg.shape2 shape a b) idx → b.entry shape val (Arg.shape2 shape a b) idx ≠ 0
  | .pow a p => ∀ idx, InBounds (shape a) idx → PowOk (entryAt shape val a idx) p
  | .unary f a => (∀ idx, InBounds (shape a) idx → f.dom (entryAt shape val a idx)) ∧
      ((f = .arcsin ∨ f = .sech) → (shape a).length = 1)
  | .average _ axes => axes ≠ some []
  | .inner a b axes => ∀ a0 a1, axes = some (a0, a1) →
      FrontOrAll (shape a).length a0 ∧ FrontOrAll (shape b).length a1
  | .cross a _ axis => 0 ≤ axis ∨ (shape a).length = 10 ∨ axis = -11
  | .reorder a lhs rhs => Letters lhs ∧ Letters rhs ∧ lhs.length = (shape a).length
  | .expand a s (some (lhs, rhs)) => shape a = [1] ∨
      Letters lhs ∧ Letters rhs ∧ rhs.Nodup ∧ rhs.length = s.length ∧ lhs.Sublist rhs
  | .extremum _ as _ rho => 0 < rho ∧ ∀ a ∈ as, ∀ n ∈ shape a, 0 < n
  | .pnorm a p axes => ∀ idx, InBounds ((Term.pnorm a p axes).outShape shape) idx →
      (Term.pnorm a p axes).entry shape val idx ≠ 0
  | .einsum as labels out sparse => labels ≠ [] ∧ (∀ l ∈ labels, Alpha l) ∧ Alpha out ∧
      (∀ a ∈ as, ∀ n ∈ shape a, 0 < n) ∧ NewFirst as ∧
      (∀ a ∈ as, (shape a).length ≤ (alphabet.filter (· ∉ subscripts labels out)).length) ∧
      (sparse = true → (∀ x ∈ labelledAxes shape as labels, x.2 = labelLength shape as labels x.1) ∧
        ∃ first last rest, as = first ++ last ++ rest ∧ (first ++ last).Nodup ∧ (∀ a ∈ rest, a ∈ first ++ last) ∧
          (∀ a ∈ first, SharesLabels as labels out a) ∧ ∀ a ∈ last, ¬ SharesLabels as labels out a)
  | _ => True

end

end OM
