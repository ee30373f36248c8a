import Verif.Model.Axes

/-!
# Model of einsum

`omtools/std/{einsum,einsum_new_api}.py`, `omtools/utils/einsum_utils.py`,
`omtools/comps/einsum_comp_{dense,sparse}_derivs.py`.

Simplifications. Values are flat arrays of reals; initial values are left out. Strings are lists of
characters; `isalpha` accepts the letters of ASCII, the only ones NumPy accepts. NumPy's ellipsis is refused,
as the components' documentation demands, and so are two axes of one operand with the same label and different
lengths. Errors that NumPy or OpenMDAO raise when the model is set up or run are raised when the expression is
made; the limit of 32 axes is left out. Arrays listed in an index are used as by `partial[tuple(list)]` (NumPy
before 1.23). A partial declared twice is the one declared last. If `compute_partials` cannot finish, an exception is
raised, but not always the one that Python meets first: the array of one input may also have a size that OpenMDAO
refuses before an index of a later input is missing. With sparse partials, `setup` raises `IndexError` instead of
`ValueError` if there are at least two operands more than lists of subscripts.
-/

namespace OM

/-! ## `np.einsum` -/

/-- All axes of the operands, with labels and lengths. An operand is given by its labels and its shape. -/
def npAxes (t : List (List Char × List Nat)) : List (Char × Nat) := t.flatMap fun p => p.1.zip p.2

/-- The number of values of a label: axes of length one are broadcast. -/
def npDim (axes : List (Char × Nat)) (ch : Char) : Nat :=
  (((axes.filter fun a => a.1 = ch).map Prod.snd).find? (· ≠ 1)).getD 1

/-- What NumPy accepts. -/
def NpEinsumOk (t : List (List Char × List Nat)) (out : List Char) : Prop :=
  t ≠ [] ∧
  (∀ p ∈ t, p.1.length = p.2.length ∧ ∀ a ∈ p.1.zip p.2, ∀ b ∈ p.1.zip p.2, a.1 = b.1 → a.2 = b.2) ∧
  (∀ a ∈ npAxes t, a.2 = 1 ∨ a.2 = npDim (npAxes t) a.1) ∧
  out.Nodup ∧ ∀ ch ∈ out, ch ∈ (npAxes t).map Prod.fst

instance (t : List (List Char × List Nat)) (out : List Char) : Decidable (NpEinsumOk t out) :=
  inferInstanceAs (Decidable (_ ∧ _))

/-- The labels summed over. -/
def npSummed (t : List (List Char × List Nat)) (out : List Char) : List Char :=
  (((npAxes t).map Prod.fst).filter (· ∉ out)).dedup

/-- The value of a label in a multi-index. -/
def npLookup (labels : List Char) (idx : List Nat) (ch : Char) : Nat := idx.getD (labels.idxOf ch) 0

/-- The position in an operand, for given values of the labels. -/
def npPos (p : List Char × List Nat) (e : Char → Nat) : Nat :=
  ravel p.2 (List.zipWith (fun ch n => if n = 1 then 0 else e ch) p.1 p.2)

def npEinsumShape (t : List (List Char × List Nat)) (out : List Char) : List Nat := out.map (npDim (npAxes t))

/-- The entries of the result: for given values of the labels of the result, the sum over all values of the
others of the product of the operands. -/
noncomputable def npEinsum (t : List (List Char × List Nat)) (out : List Char) (xs : Nat → Nat → ℝ) (r : Nat) :
    ℝ :=
  let con := npSummed t out
  ((cartesian ((con.map (npDim (npAxes t))).map List.range)).map fun q =>
    ((List.range t.length).map fun k => xs k (npPos (t.getD k ([], []))
      (npLookup (out ++ con) (unravel (npEinsumShape t out) r ++ q)))).prod).sum

/-! ## Subscripts -/

/-- `einsum_subscripts_tolist`, einsum_utils.py 26-44, and the same loop in the components, dense 62-80, sparse
62-80. -/
def einsumToList (acc : List Char) : List Char → List (List Char)
  | [] => [acc.reverse]
  | c :: t =>
    if c.isAlpha then einsumToList (c :: acc) t
    else if c = ',' ∨ c = '-' then acc.reverse :: einsumToList [] t
    else einsumToList acc t

/-- `s.split(',')` -/
def splitComma (acc : List Char) : List Char → List (List Char)
  | [] => [acc.reverse]
  | c :: t => if c = ',' then acc.reverse :: splitComma [] t else splitComma (c :: acc) t

/-- In the order of the characters. -/
def asciiLetters : List Char := "ABCDEFGHIJKLMNOPQRSTUVWXYZabcdefghijklmnopqrstuvwxyz".toList

/-- How NumPy reads a string of subscripts. Without an arrow, the labels that occur once are those of the
result, in alphabetical order. -/
def npParse (s : List Char) : Except PyErr (List (List Char) × List Char) :=
  let go (ops : List (List Char)) (out : List Char) : Except PyErr (List (List Char) × List Char) :=
    if (∀ o ∈ ops, ∀ ch ∈ o, ch.isAlpha) ∧ (∀ ch ∈ out, ch.isAlpha) then .ok (ops, out) else .error .valueError
  match splitArrow [] (s.filter (· ≠ ' ')) with
  | [l, r] => go (splitComma [] l) r
  | [l] =>
    let ops := splitComma [] l
    go ops (asciiLetters.filter fun ch => ops.flatten.count ch = 1)
  | _ => .error .valueError

/-- The length looked up for a label, einsum_utils.py 15-19. -/
def firstAxis (ch : Char) : List (List Char) → List (List Nat) → Except PyErr (Option Nat)
  | [], _ => .ok none
  | S :: ops, shapes =>
    if ch ∈ S then
      match shapes with
      | [] => .error .indexError
      | s :: _ =>
        match s[S.idxOf ch]? with
        | none => .error .indexError
        | some n => .ok (some n)
    else firstAxis ch ops shapes.tail

/-- `compute_einsum_shape`, einsum_utils.py 4-23. -/
def computeEinsumShape (lst : List (List Char)) (shapes : List (List Nat)) : Except PyErr (List Nat) :=
  let out := lst.getLastD []
  if out = [] then .ok [1]
  else
    match out.mapM fun ch => firstAxis ch lst.dropLast shapes with
    | .error e => .error e
    | .ok l => .ok l.reduceOption

/-! ## Components -/

structure Einsum where
  names : List String
  shapes : List (List Nat)
  /-- the subscripts, and how NumPy reads them -/
  lst : List (List Char)
  npOps : List (List Char)
  npOut : List Char
  /-- `unused_chars` -/
  unused : List Char
  shape : List Nat

def alphabet : List Char := "abcdefghijklmnopqrstuvwxyz".toList

/-- `einsum`, std/einsum.py 24-53, up to the format of the partials. The result is assigned to an output of
the announced shape: the sizes have to agree, except that a result with one entry is broadcast. -/
def stdEinsum (operands : List (String × List Nat)) (subscripts : List Char) : Except PyErr Einsum :=
  if subscripts = [] then .error .indexError
  else
    let lst := einsumToList [] subscripts
    let shapes := operands.map Prod.snd
    match computeEinsumShape lst shapes with
    | .error e => .error e
    | .ok shape =>
      match npParse subscripts with
      | .error e => .error e
      | .ok (ops, out) =>
        if ops.length ≠ operands.length then .error .valueError
        else if ¬ NpEinsumOk (ops.zip shapes) out then .error .valueError
        else if prodShape (npEinsumShape (ops.zip shapes) out) ≠ prodShape shape ∧
            prodShape (npEinsumShape (ops.zip shapes) out) ≠ 1 then .error .valueError
        else .ok ⟨operands.map Prod.fst, shapes, lst, ops, out, alphabet.filter (· ∉ subscripts), shape⟩

def Einsum.size (c : Einsum) : Nat := prodShape c.shape
def Einsum.name (c : Einsum) (k : Nat) : String := c.names.getD k ""
def Einsum.shapeAt (c : Einsum) (k : Nat) : List Nat := c.shapes.getD k []
def Einsum.sizeAt (c : Einsum) (k : Nat) : Nat := prodShape (c.shapeAt k)

/-- The operands that are not skipped as `in_name in completed_in_names`, dense 100-105 and 147-152. -/
def Einsum.firsts (c : Einsum) : List Nat :=
  (List.range c.names.length).filter fun k => c.name k ∉ c.names.take k

/-- dense 106, sparse 102 -/
def Einsum.ins (c : Einsum) : List (String × Nat) := c.firsts.map fun k => (c.name k, c.sizeAt k)

/-- dense 128-134, sparse 296-302 -/
noncomputable def Einsum.compute (c : Einsum) (inp : String → Nat → ℝ) (r : Nat) : ℝ :=
  let t := c.npOps.zip c.shapes
  let v := npEinsum t c.npOut fun k => inp (c.name k)
  if prodShape (npEinsumShape t c.npOut) = c.size then v r else v 0

/-- `locations`, dense 159-162, sparse 325-327 -/
def Einsum.locations (c : Einsum) (f : Nat) : List Nat :=
  (List.range c.names.length).filter fun k => c.name k = c.name f

/-- `self.I`, dense 116-126, sparse 144-152: an identity for each input, given by the shape. -/
def Einsum.identities (c : Einsum) : List (List Nat) := c.firsts.map c.shapeAt

/-- `np.einsum` of the operands with operand `i` replaced by an identity with axes `s`, dense 164-185 and
188-206, sparse 329-352 and 355-372; `rank` is the number of labels added. -/
noncomputable def Einsum.derivAt (c : Einsum) (inp : String → Nat → ℝ) (i rank : Nat) (s : List Nat) :
    Except PyErr (Nat → ℝ) :=
  let u := c.unused.take rank
  let ops := c.lst.dropLast
  let ops' := ops.set i (ops.getD i [] ++ u)
  let t := ops'.zip (c.shapes.set i (s ++ s))
  let out := c.lst.getLastD [] ++ u
  if ops'.length ≠ c.names.length ∨ ¬ NpEinsumOk t out then .error .valueError
  else .ok (npEinsum t out fun k => if k = i then npIdentity (prodShape s) else inp (c.name k))

/-- The array with axes of the output and of input `f`: the sum over the places where it is used. -/
noncomputable def Einsum.partial_ (c : Einsum) (inp : String → Nat → ℝ) (f : Nat) : Except PyErr (Nat → ℝ) :=
  match c.identities[f]?, c.identities[c.firsts.idxOf f]? with
  | some s, some s' =>
    match c.derivAt inp f (c.shapeAt f).length s,
        (c.locations f).tail.mapM fun i => c.derivAt inp i (c.shapeAt f).length s' with
    | .ok a, .ok as => .ok fun k => a k + (as.map fun b => b k).sum
    | .error e, _ => .error e
    | _, .error e => .error e
  | _, _ => .error .indexError

/-- `compute_partials` with dense partials, dense 136-206. -/
noncomputable def Einsum.densePartials (c : Einsum) (inp : String → Nat → ℝ) : Except PyErr (String → Coo) :=
  match c.firsts.mapM fun f => c.partial_ inp f with
  | .error e => .error e
  | .ok l => .ok fun name =>
    let f := c.names.idxOf name
    denseCoo c.size (c.sizeAt f) (l.getD (c.firsts.idxOf f) fun _ => 0)

/-- `self.surviving_axes_map[loc]` is not empty, sparse 115-125. -/
def Einsum.surviving (c : Einsum) (loc : Nat) : Bool :=
  (c.lst.getD loc []).any fun ch => ch ∈ c.lst.getLastD []

/-- `sparse_partial`, sparse 193-201 and 374-377 -/
def Einsum.isSparse (c : Einsum) (f : Nat) : Bool := (c.locations f).all c.surviving

/-- The positions, in an array with axes of the output and of input `f`, listed for the place `loc`, sparse
208-256: any position `u` in the input, any values `rem` of the labels of the output that are not in the
operand, and the values given by `u` of those that are. -/
def Einsum.patternAt (c : Einsum) (f loc : Nat) : List Nat :=
  let S := c.lst.getD loc []
  let out := c.lst.getLastD []
  let s := c.shapeAt f
  let remLabels := out.filter (· ∉ S)
  let remShape := remLabels.map fun ch => c.shape.getD (out.idxOf ch) 0
  (cartesian (remShape.map List.range)).flatMap fun rem => (List.range (prodShape s)).map fun u =>
    let o := out.map fun ch =>
      if ch ∈ S then (unravel s u).getD (S.idxOf ch) 0 else rem.getD (remLabels.idxOf ch) 0
    ravel c.shape o * prodShape s + u

/-- `full_partial_indices_list`, sparse 177-278: position zero and the positions of all places, sorted and
without repetition (`np.unique` of the rows of indices). -/
def Einsum.pattern (c : Einsum) (f : Nat) : List Nat :=
  (List.range (c.size * c.sizeAt f)).filter fun k => k ∈ 0 :: (c.locations f).flatMap (c.patternAt f)

/-- `compute_partials` with sparse partials, sparse 304-387. The pattern used is number `len(completed) - 1` of
the patterns of the sparse inputs; if it is one of another input, there are fewer patterns than inputs up to the
last sparse one, which raises `IndexError`. The index `(0, …, 0)` has to exist, 280-283. -/
noncomputable def Einsum.sparsePartials (c : Einsum) (inp : String → Nat → ℝ) : Except PyErr (String → Coo) :=
  let sp := c.firsts.filter c.isSparse
  if ∃ f ∈ sp, c.size * c.sizeAt f = 0 then .error .valueError
  else
    match c.firsts.mapM fun f => c.partial_ inp f with
    | .error e => .error e
    | .ok l =>
      if ∃ f ∈ sp, sp[c.firsts.idxOf f]? ≠ some f then .error .indexError
      else .ok fun name =>
        let f := c.names.idxOf name
        let a := l.getD (c.firsts.idxOf f) fun _ => 0
        if c.isSparse f then
          ⟨(c.pattern f).map (· / c.sizeAt f), (c.pattern f).map (· % c.sizeAt f), (c.pattern f).map a⟩
        else denseCoo c.size (c.sizeAt f) a

/-! ## `einsum_new_api` -/

/-- The loop over the axes of a tuple, einsum_utils.py 62-67: `axis_map`, and the letters. -/
def assignLetters {α : Type} [DecidableEq α] : List (α × Char) → List Char → List α →
    Except PyErr (List (α × Char) × List Char × List Char)
  | m, unused, [] => .ok (m, unused, [])
  | m, unused, x :: xs =>
    match m.lookup x with
    | some ch =>
      match assignLetters m unused xs with
      | .error e => .error e
      | .ok (m', un', l) => .ok (m', un', ch :: l)
    | none =>
      match unused with
      | [] => .error .indexError
      | ch :: un =>
        match assignLetters (m ++ [(x, ch)]) un xs with
        | .error e => .error e
        | .ok (m', un', l) => .ok (m', un', ch :: l)

/-- The loop over the tuples of the operands, 59-71. -/
def assignAll {α : Type} [DecidableEq α] : List (α × Char) → List Char → List (List α) →
    Except PyErr (List (α × Char) × List (List Char))
  | m, _, [] => .ok (m, [])
  | m, unused, x :: xs =>
    match assignLetters m unused x with
    | .error e => .error e
    | .ok (m', un', l) =>
      match assignAll m' un' xs with
      | .error e => .error e
      | .ok (m'', ls) => .ok (m'', l :: ls)

/-- `new_einsum_subscripts_to_string_and_list`, 47-84: the string and the list. -/
def newEinsumSubscripts {α : Type} [DecidableEq α] (subscripts : List (List α)) (scalarOutput : Bool) :
    Except PyErr (List Char × List (List Char)) :=
  let ins := if scalarOutput then subscripts else subscripts.dropLast
  match assignAll [] alphabet ins with
  | .error e => .error e
  | .ok (m, ls) =>
    let last := if scalarOutput then [] else subscripts.getLastD []
    if ∃ x ∈ last, m.lookup x = none then .error .keyError
    else
      let out := last.map fun x => (m.lookup x).getD ' '
      .ok ((ls.flatMap fun l => l ++ [',']).dropLast ++ ['-', '>'] ++ out, ls ++ [out])

/-- `einsum_new_api`, std/einsum_new_api.py 26-60: the same components, with `operation_string`; the shape is
computed from the list. -/
def stdEinsumNew {α : Type} [DecidableEq α] (operands : List (String × List Nat)) (operation : List (List α)) :
    Except PyErr Einsum :=
  match newEinsumSubscripts operation (operands.length = operation.length) with
  | .error e => .error e
  | .ok (str, lst) =>
    match computeEinsumShape lst (operands.map Prod.snd) with
    | .error e => .error e
    | .ok shape =>
      match stdEinsum operands str with
      | .error e => .error e
      | .ok c => .ok { c with shape := shape }

end OM
