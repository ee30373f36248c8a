import Verif.Model.Err
import Mathlib.Data.List.DropRight
import Mathlib.Data.List.SplitOn
import Mathlib.Data.List.Sort
import Mathlib.Data.String.Basic

/-!
# The printed table of options (`OptionsDictionary.__rst__` and `__str__`, options_dictionary.py 67-194)

Texts are lists of characters. Of an option the model knows the texts that Python's `str` gives for its
value, for the list of its acceptable values, and for its description.
-/

namespace OM

abbrev Text := List Char

/-- The argument `types` of `declare`. -/
inductive TypesShown
  | na
  /-- a type, or a tuple or list of types: their names -/
  | names (l : List Text)
  /-- a set of types -/
  | set

structure OptEntry where
  name : String
  /-- `str(value)`; `none` if the option is required -/
  value : Option Text
  /-- `str` of the list of acceptable values, or `N/A` -/
  values : Text
  types : TypesShown
  desc : Text

/-- `str(names)` of a list of names without quotation marks: `['int', 'float']`. -/
def showNames : List Text → Text
  | [] => "[]".toList
  | n :: ns => "['".toList ++ n ++ ns.flatMap (fun m => "', '".toList ++ m) ++ "']".toList

/-- `s.find(pat)`, `none` for -1. -/
def findText (pat : Text) : Text → Option Nat
  | [] => if pat = [] then some 0 else none
  | c :: s => if pat <+: c :: s then some 0 else (findText pat s).map (· + 1)

/-- `' object at '`, line 87. -/
def objectAt : Text := [' ', 'o', 'b', 'j', 'e', 'c', 't', ' ', 'a', 't', ' ']

/-- Lines 79-90: an object is shown by the name of its class. -/
def showDefault : Option Text → Text
  | none => "**Required**".toList
  | some s =>
    match findText objectAt s with
    | some i => if s.head? = some '<' then ((s.take i).splitOn '.').getLastD [] else s
    | none => s

/-- Lines 92-110: the cells of an option. A set of types is put into a tuple, and the set has no `__name__`. -/
def optCells (e : OptEntry) : Except PyErr (List Text) :=
  match e.types with
  | .na => .ok [e.name.toList, showDefault e.value, e.values, "N/A".toList, e.desc]
  | .names l => .ok [e.name.toList, showDefault e.value, e.values, showNames l, e.desc]
  | .set => .error .attributeError

/-- Line 114. -/
def colHeads : List Text :=
  ["Option".toList, "Default".toList, "Acceptable Values".toList, "Acceptable Types".toList, "Description".toList]

/-- Lines 116-124: the widths of the columns. -/
def colSizes (heads : List Text) (rows : List (List Text)) : List Nat :=
  rows.foldl (fun sizes row => (sizes.zip row).map fun p => if p.1 < p.2.length then p.2.length else p.1)
    (heads.map List.length)

/-- Lines 126-129. -/
def ruleLine (sizes : List Nat) : Text := sizes.flatMap fun n => List.replicate n '=' ++ [' ']

/-- Lines 131-136 and 143-150: every cell is followed by a space and filled up. -/
def cellsLine (sizes : List Nat) (row : List Text) : Text :=
  (sizes.zip row).flatMap fun p => p.2 ++ ' ' :: List.replicate (p.1 - p.2.length) ' '

/-- Lines 138-155: the lines of the table for given rows. -/
def tableLines (heads : List Text) (rows : List (List Text)) : List Text :=
  let sizes := colSizes heads rows
  [ruleLine sizes, cellsLine sizes heads, ruleLine sizes] ++ rows.map (cellsLine sizes) ++ [ruleLine sizes]

/-- `sorted(iteritems(self._dict))`, line 77; names are different, so nothing else is compared. -/
def sortEntries (es : List OptEntry) : List OptEntry := es.insertionSort fun a b => a.name ≤ b.name

/-- `__rst__`, 67-157. -/
def optRst (es : List OptEntry) : Except PyErr (List Text) :=
  match (sortEntries es).mapM optCells with
  | .error e => .error e
  | .ok rows => .ok (tableLines colHeads rows)

/-- Lines 188-190: `while len(row) > 0`. (`desc_len` is at least ten there.) -/
def restLines (indent descLen : Nat) (row : Text) : List Text :=
  if h : row = [] ∨ descLen = 0 then []
  else (List.replicate indent ' ' ++ row.take descLen) :: restLines indent descLen (row.drop descLen)
  termination_by row.length
  decreasing_by
    simp only [not_or] at h
    simp only [List.length_drop]
    have := List.length_pos_iff.2 h.1
    omega

/-- `s.rstrip()`; `ws` tells which characters count as white space. -/
def rstrip (ws : Char → Bool) (s : Text) : Text := s.rdropWhile ws

/-- Lines 183-192. -/
def wrapRow (ws : Char → Bool) (width indent descLen : Nat) (row : Text) : List Text :=
  if width < row.length then
    row.take width ::
      (if ['=', '=', '='] <+: row then [] else restLines indent descLen (rstrip ws (row.drop width)))
  else [row]

/-- `s.split()` for texts whose only white space is the blank. -/
def splitBlanks (s : Text) : List Text := (s.splitOnP (· == ' ')).filter (· ≠ [])

/-- Lines 173-192, for the lines of the table: the column where descriptions start is found from the rule. -/
def wrapTable (ws : Char → Bool) (width : Nat) (rst : List Text) : List Text :=
  let cols := (splitBlanks (rst.headD [])).map List.length
  let descCol := cols.dropLast.sum + cols.length - 1
  if width < descCol + 10 then rst
  else rst.flatMap (wrapRow ws width descCol (width - descCol))

/-- `__str__`: the lines of the text. -/
def optStr (ws : Char → Bool) (width : Nat) (es : List OptEntry) : Except PyErr (List Text) :=
  match optRst es with
  | .error e => .error e
  | .ok rst => .ok (wrapTable ws width rst)

end OM
