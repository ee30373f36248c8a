import Mathlib.Data.List.Infix

/-!
# Shortened code in comparisons

`docs/_exts/embed_compare.py`, `EmbedCompareDirective.run`, lines 81-111: the part of the source code of a method that a
page of the documentation shows, given the text that marks its first line and the text that marks its last line.

A line is a list of characters.

Simplifications: the nodes of the document are left out; the source code is given as its lines (`text.split('\n')` has at
least one).
-/

namespace OM

abbrev CodeLine := List Char

/-- Lines 84-92: from the first line with the text `start`, or from the first line. -/
def fromStart (start : CodeLine) (lines : List CodeLine) : List CodeLine :=
  lines.drop ((lines.findIdx? fun l => decide (start <:+: l)).getD 0)

/-- Lines 93-99: up to the first line with the text `stop`, or to the end. -/
def upToEnd (stop : CodeLine) (lines : List CodeLine) : List CodeLine :=
  lines.take (((lines.findIdx? fun l => decide (stop <:+: l)).map (· + 1)).getD lines.length)

/-- `line.replace(pat, '')`; `skip` characters of an occurrence are still to be left out. -/
def removeAll (pat : CodeLine) : Nat → CodeLine → CodeLine
  | _, [] => []
  | skip + 1, _ :: l => removeAll pat skip l
  | 0, c :: l => if pat <+: c :: l then removeAll pat (pat.length - 1) l else c :: removeAll pat 0 l

/-- Lines 101-105. -/
def suppressCheck (line : CodeLine) : CodeLine :=
  if "prob.setup(check=False".toList <:+: line then
    removeAll "check=False".toList 0 (removeAll "check=False, ".toList 0 line)
  else line

/-- Lines 107-109: `while lines[0].startswith('    '): lines = [line[4:] for line in lines]`. -/
def dedent : CodeLine → List CodeLine → List CodeLine
  | ' ' :: ' ' :: ' ' :: ' ' :: first, rest => dedent first (rest.map (List.drop 4))
  | first, rest => first :: rest

/-- Lines 81-111. -/
def embedded (start stop : CodeLine) (lines : List CodeLine) : List CodeLine :=
  match (upToEnd stop (fromStart start lines)).map suppressCheck with
  | [] => []
  | first :: rest => dedent first rest

end OM
