import Verif.Model.Indexing

/-!
# Model of keys with items that are neither integers nor slices

`Variable.__getitem__` (`omtools/core/variable.py` 142-212) and `ExplicitOutput.__setitem__`
(`omtools/core/explicit_output.py` 88-166) for the remaining kinds of keys: `...`, `None`, and objects that NumPy
refuses as an index (strings, floats). Lists and arrays, NumPy's advanced indexing, are left out.
-/

namespace OM

/-- One item of a key. -/
inductive AnyItem
  | item (e : KeyItem)
  | ellipsis
  | newaxis
  | junk
  deriving DecidableEq, Repr

/-- A key: one item, or a tuple of items. -/
inductive AnyKey
  | one (e : AnyItem)
  | tuple (es : List AnyItem)
  deriving DecidableEq, Repr

def AnyKey.items : AnyKey → List AnyItem
  | .one e => [e]
  | .tuple es => es

def AnyItem.item? : AnyItem → Option KeyItem
  | .item e => some e
  | _ => none

/-- Shape of an indexed array; `none` stands for `None`, which adds an axis of length one. -/
def npShapeNew : List Nat → List (Option KeyItem) → Except PyErr (List Nat)
  | ns, [] => .ok ns
  | ns, none :: es => (npShapeNew ns es).map (1 :: ·)
  | [], some _ :: _ => .error .indexError
  | n :: ns, some (.int k) :: es =>
    if -(n : Int) ≤ k ∧ k < n then npShapeNew ns es else .error .indexError
  | n :: ns, some (.slice a b s) :: es =>
    if s = some 0 then .error .valueError
    else (npShapeNew ns es).map fun r => (npSlice n a b s).length :: r

/-- Shape of `val[key]`: `...` stands for as many full slices as axes are left. `IndexError` for two `...`, for objects
that are no index, and for too many items. -/
def npAnyShape (shape : List Nat) (key : List AnyItem) : Except PyErr (List Nat) :=
  if AnyItem.junk ∈ key ∨ 1 < key.count .ellipsis ∨ shape.length < (key.filterMap AnyItem.item?).length then
    .error .indexError
  else npShapeNew shape (key.flatMap fun
    | .item e => [some e]
    | .newaxis => [none]
    | .ellipsis => List.replicate (shape.length - (key.filterMap AnyItem.item?).length)
        (some (.slice none none none))
    | .junk => [])

/-- variable.py 146-150 -/
def firstUseAny (v : IVar) (key : AnyKey) : IVar × Option PyErr :=
  if v.called then (v, none)
  else
    match npAnyShape v.valShape key.items with
    | .error e => ({ v with called := true }, some e)
    | .ok _ => ({ v with called := true, decomp := some [], fresh := v.fresh + 1 }, none)

/-- variable.py 165-180, from position `i` on, with the rest of the shape: an item that is neither a slice nor an
integer is skipped, and counts as a position. -/
def normAnyItems : List Nat → List AnyItem → Except PyErr NKey
  | _, [] => .ok []
  | n :: ns, .item e :: es => (normAnyItems ns es).map (normItem n e :: ·)
  | [], .item (.int k) :: es => (normAnyItems [] es).map ((k, k + 1, none) :: ·)
  | [], .item (.slice _ _ _) :: _ => .error .indexError
  | ns, .ellipsis :: es => normAnyItems ns.tail es
  | ns, .newaxis :: es => normAnyItems ns.tail es
  | ns, .junk :: es => normAnyItems ns.tail es

/-- variable.py 154-185 -/
def normAnyKey (shape : List Nat) : AnyKey → Except PyErr NKey
  | .one (.item e) => .ok [normItem (prodShape shape) e]
  | .one _ => .error .typeError
  | .tuple es => normAnyItems shape es

/-- `Variable.__getitem__`, variable.py 142-212. -/
def getAny (v : IVar) (key : AnyKey) : IVar × Except PyErr IndexedExpr :=
  match firstUseAny v key with
  | (v, some e) => (v, .error e)
  | (v, none) =>
    match normAnyKey v.shape key with
    | .error e => (v, .error e)
    | .ok k =>
      match v.decomp with
      | none => (v, .error .attributeError)
      | some dict => getDecomposed v dict k

/-- explicit_output.py 96-119: other items have no attribute `start`. The items are read from left to right; Python
evaluates `s.start` before `self.shape[i]`. -/
def tgtAnyLists : List Nat → List AnyItem → Except PyErr (List (List Int))
  | _, [] => .ok []
  | [], .item _ :: _ => .error .indexError
  | n :: ns, .item e :: es =>
    let l := match e with
      | .int k => sliceToList (some k) (some (k + 1)) none (some n)
      | .slice a b s => sliceToList a b s (some n)
    match l with
    | .error e => .error e
    | .ok l => (tgtAnyLists ns es).map (l :: ·)
  | _, .ellipsis :: _ => .error .attributeError
  | _, .newaxis :: _ => .error .attributeError
  | _, .junk :: _ => .error .attributeError

/-- explicit_output.py 92-136 -/
def tgtAny (shape : List Nat) : AnyKey → Except PyErr (List Nat × List Int)
  | .tuple es =>
    match tgtAnyLists shape es with
    | .error e => .error e
    | .ok ls => (ravelGrid shape ls).map fun r => (ls.map List.length, r.map Int.ofNat)
  | .one (.item e) => tgtIndices shape (.one e)
  | .one _ => .error .typeError

/-- `out[key] = expr`, explicit_output.py 88-166: nothing is stored if the key is refused. -/
def setAny (v : OVar) (key : AnyKey) (name : String) (shape : List Nat) : OVar × Option PyErr :=
  match tgtAny v.shape key with
  | .error e => (v, some e)
  | .ok (s, idx) =>
    if s ≠ shape then (v, some .valueError)
    else if ∃ i ∈ idx, (prodShape v.shape : Int) ≤ i then (v, some .valueError)
    else if ∃ p ∈ v.tgt, p.1 = name then (v, some .keyError)
    else
      let v1 : OVar := { v with tgt := v.tgt ++ [(name, shape, idx)], checked := v.checked ++ idx }
      if ∃ i ∈ idx, i ∈ v.checked then (v1, some .valueError)
      else ({ v1 with built := true }, none)

end OM
