import Verif.Model.Numpy
import Verif.Spec.Component

/-!
# Model of `Variable.__getitem__` (`omtools/core/variable.py` 142-212) and
`ExplicitOutput.__setitem__` (`omtools/core/explicit_output.py` 88-166), with the components they build
(`omtools/comps/decompose_comp.py`, `omtools/comps/indexed_pass_through_comp.py`)
-/

namespace OM

/-! ## Reading -/

/-- A key as stored in the dictionary `indexed_exprs`: one `(start, stop, step)` per axis. -/
abbrev NKey := List (Int × Int × Option Int)

/-- An expression returned by `x[key]`: its identity, `shape`, and `_decomp.src_indices`. -/
structure IndexedExpr where
  id : Nat
  shape : List Nat
  src : List Nat
  deriving DecidableEq, Repr

/-- The state of a variable that matters for indexing. `valShape` is the shape of the array `val`,
which the code does not keep equal to `shape`. `decomp = some dict` once `_decomp` exists; `fresh` is the
identity of the next object. -/
structure IVar where
  shape : List Nat
  valShape : List Nat
  called : Bool                                    -- `_getitem_called`
  decomp : Option (List (NKey × IndexedExpr))      -- `_decomp.indexed_exprs`
  fresh : Nat

def Key.items : Key → List KeyItem
  | .one e => [e]
  | .tuple es => es

/-- `slice_to_tuple` (variable.py 15-20) applied to one item, `size` being the length used for a missing stop. -/
def normItem (size : Nat) : KeyItem → Int × Int × Option Int
  | .int k => (k, k + 1, none)
  | .slice a b s => (a.getD 0, b.getD size, s)

/-- Tuple keys, lines 165-180: `self.shape[i]` raises `IndexError` for a slice beyond the rank. -/
def normItems : List Nat → List KeyItem → Except PyErr NKey
  | _, [] => .ok []
  | n :: ns, e :: es => (normItems ns es).map (normItem n e :: ·)
  | [], .int k :: es => (normItems [] es).map ((k, k + 1, none) :: ·)
  | [], .slice _ _ _ :: _ => .error .indexError

/-- Lines 154-185. -/
def normKey (shape : List Nat) : Key → Except PyErr NKey
  | .one e => .ok [normItem (prodShape shape) e]
  | .tuple es => normItems shape es

/-- Line 192: `[slice_to_list(s[0], s[1], s[2]) for s in key]`, without the size. -/
def keyLists : NKey → Except PyErr (List (List Int))
  | [] => .ok []
  | (a, b, s) :: ks =>
    match sliceToList (some a) (some b) s none with
    | .error e => .error e
    | .ok l => (keyLists ks).map (l :: ·)

/-- Lines 187-212, once `_decomp` exists. -/
def getDecomposed (v : IVar) (dict : List (NKey × IndexedExpr)) (key : NKey) :
    IVar × Except PyErr IndexedExpr :=
  match dict.find? (fun p => p.1 == key) with
  | some p => (v, .ok p.2)
  | none =>
    match keyLists key with
    | .error e => (v, .error e)
    | .ok ls =>
      match ravelGrid v.shape ls with
      | .error e => (v, .error e)
      | .ok src =>
        if ∃ i ∈ src, prodShape v.shape ≤ i then (v, .error .valueError)
        else
          match npIndexShape v.valShape (key.map fun s => .slice (some s.1) (some s.2.1) s.2.2) with
          | .error e => (v, .error e)
          | .ok shape =>
            let expr : IndexedExpr := ⟨v.fresh, shape, src⟩
            ({ v with decomp := some (dict ++ [(key, expr)]), fresh := v.fresh + 1 }, .ok expr)

/-- Lines 146-150: `self.val[key]` is evaluated after `_getitem_called` has been set. -/
def firstUse (v : IVar) (key : Key) : IVar × Option PyErr :=
  if v.called then (v, none)
  else
    match npIndexShape v.valShape key.items with
    | .error e => ({ v with called := true }, some e)
    | .ok _ => ({ v with called := true, decomp := some [], fresh := v.fresh + 1 }, none)

/-- `Variable.__getitem__`, lines 142-212. -/
def getItem (v : IVar) (key : Key) : IVar × Except PyErr IndexedExpr :=
  match firstUse v key with
  | (v, some e) => (v, .error e)
  | (v, none) =>
    match normKey v.shape key with
    | .error e => (v, .error e)
    | .ok k =>
      match v.decomp with
      | none => (v, .error .attributeError)
      | some dict => getDecomposed v dict k

/-- A variable that was never indexed. -/
def IVar.new (shape valShape : List Nat) : IVar := ⟨shape, valShape, false, none, 0⟩

/-- A history of reads; exceptions are caught and the program goes on. -/
def getItems (v : IVar) (keys : List Key) : IVar := keys.foldl (fun v k => (getItem v k).1) v

/-- `DecomposeComp.compute` for one output, decompose_comp.py 46-48, on flat data. -/
def decomposeCompute {α : Type} (src : List Nat) (x : Nat → α) : List α := src.map x

/-- The partial declared for one output, decompose_comp.py 35-41. -/
def decomposePartials (src : List Nat) : Coo :=
  ⟨List.range src.length, src, List.replicate src.length 1⟩

/-! ## Assignment -/

/-- The state of an `ExplicitOutput` that matters for indexed assignment: `_tgt_indices` (name, shape
and flat indices, in order of insertion), `checked_indices`, and whether `build` was set. -/
structure OVar where
  shape : List Nat
  tgt : List (String × List Nat × List Int)
  checked : List Int
  built : Bool
  deriving DecidableEq, Repr

/-- Lines 96-119: the lists for a tuple key; `self.shape[i]` raises `IndexError` beyond the rank. -/
def tgtLists : List Nat → List KeyItem → Except PyErr (List (List Int))
  | _, [] => .ok []
  | [], _ :: _ => .error .indexError
  | n :: ns, e :: es =>
    let l := match e with
      | .int k => sliceToList (some k) (some (k + 1)) none (some n)
      | .slice a b s => sliceToList a b s (some n)
    match l with
    | .error e => .error e
    | .ok l => (tgtLists ns es).map (l :: ·)

/-- Lines 92-136: shape and flat values of `tgt_indices`. -/
def tgtIndices (shape : List Nat) : Key → Except PyErr (List Nat × List Int)
  | .tuple es =>
    match tgtLists shape es with
    | .error e => .error e
    | .ok ls => (ravelGrid shape ls).map fun r => (ls.map List.length, r.map Int.ofNat)
  | .one (.slice a b s) =>
    match shape with
    | [] => .error .indexError
    | n :: _ => (sliceToList a b s (some n)).map fun l => ([l.length], l)
  | .one (.int k) => .ok ([1], [k])

/-- `out[key] = expr` for an expression with the given name and shape, lines 88-166. -/
def setItemIdx (v : OVar) (key : Key) (name : String) (shape : List Nat) : OVar × Option PyErr :=
  match tgtIndices v.shape key with
  | .error e => (v, some e)
  | .ok (s, idx) =>
    if s ≠ shape then (v, some .valueError)
    else if ∃ i ∈ idx, (prodShape v.shape : Int) ≤ i then (v, some .valueError)
    else if ∃ p ∈ v.tgt, p.1 = name then (v, some .keyError)
    else
      let v1 : OVar := { v with tgt := v.tgt ++ [(name, shape, idx)], checked := v.checked ++ idx }
      if ∃ i ∈ idx, i ∈ v.checked then (v1, some .valueError)
      else ({ v1 with built := true }, none)

def OVar.new (shape : List Nat) : OVar := ⟨shape, [], [], false⟩

/-- An assignment: key, name of the expression at that time, shape of the expression. -/
abbrev Assign := Key × String × List Nat

/-- A history of assignments; exceptions are caught and the program goes on. -/
def assigns (v : OVar) (as : List Assign) : OVar :=
  as.foldl (fun v a => (setItemIdx v a.1 a.2.1 a.2.2).1) v

/-- `IndexedPassThroughComp.compute`, indexed_pass_through_comp.py 45-51, on flat data: `x name` is the
flat value of the input of that name. `np.unravel_index` raises `ValueError` for a negative index. -/
def indexedPassThrough {α : Type} (tgt : List (String × List Nat × List Int)) (x : String → Nat → α)
    (out : Nat → α) : Except PyErr (Nat → α) :=
  tgt.foldlM (fun out p =>
    if ∃ i ∈ p.2.2, i < 0 then .error .valueError
    else .ok ((p.2.2.zipIdx).foldl (fun out q => Function.update out q.1.toNat (x p.1 q.2)) out)) out

/-- The inputs of the component with their sizes, indexed_pass_through_comp.py 27-33. -/
def indexedIns (tgt : List (String × List Nat × List Int)) : List (String × Nat) :=
  tgt.map fun p => (p.1, prodShape p.2.1)

/-- The partials declared for the inputs, indexed_pass_through_comp.py 34-40. -/
def indexedPartials (tgt : List (String × List Nat × List Int)) (name : String) : Coo :=
  match tgt.find? fun p => p.1 == name with
  | some p => ⟨p.2.2.map Int.toNat, List.range p.2.2.length, List.replicate p.2.2.length 1⟩
  | none => ⟨[], [], []⟩

/-- What the output holds after `compute`, if it held `out` before; unchanged if `compute` raises. -/
def indexedOutput {α : Type} (tgt : List (String × List Nat × List Int)) (out : Nat → α) (x : String → Nat → α) :
    Nat → α :=
  match indexedPassThrough tgt x out with
  | .ok r => r
  | .error _ => out

end OM
