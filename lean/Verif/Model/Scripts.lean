import Verif.Model.Err

/-!
# The content of the generated example scripts

`omtools/utils/generate_example_scripts.py` 23-53 and 85-151: what is written to the script of an example class.

Simplifications: texts are lists of lines, a line is a list of characters without line break, and every line of a file is
ended by a line break. The descriptions of parameters are one line each. `docstring_parser` is the list of variables and
the list of options of the class; `inspect.getmro` the names of the classes; `inspect.getsource` the lines of the class.
The names of scripts are in `Verif.Model.Examples`; here a script is identified by the class.
-/

namespace OM

/-- A line without its line break. -/
abbrev Line := List Char

/-- `line.lstrip()`, generate_example_scripts.py 92. -/
def lstrip (l : Line) : Line := l.dropWhile Char.isWhitespace

/-- `re.match('import', l) or re.match('from', l)`, generate_example_scripts.py 93. -/
def looksLikeImport (l : Line) : Bool := "import".toList.isPrefixOf l || "from".toList.isPrefixOf l

/-- The lines gathered, generate_example_scripts.py 87-94. -/
def gatherImports (lines : List Line) : List Line := (lines.map lstrip).filter looksLikeImport

/-- A line matched by `.*:param.*:.*\n`. -/
def isParamLine : Line → Bool
  | [] => false
  | c :: l => (":param".toList.isPrefixOf (c :: l) && (l.drop 5).contains ':') || isParamLine l

/-- `re.sub('.*:param.*:.*\n', '', …)`, generate_example_scripts.py 130-131. -/
def dropParams (lines : List Line) : List Line := lines.filter fun l => !isParamLine l

/-- Three quotation marks. -/
def tripleQuote : Line := ['"', '"', '"']

/-- What follows the last three quotation marks of a line; `none` if there are none. -/
def afterLastQuote : Line → Option Line
  | [] => none
  | c :: l =>
    match afterLastQuote l with
    | some r => some r
    | none => if tripleQuote.isPrefixOf (c :: l) then some (l.drop 2) else none

/-- `re.sub('\n.*"""\n.*"""', '', …)`, generate_example_scripts.py 132. The first argument is the line to whose end the next
line break belongs. -/
def dropQuotes : Line → List Line → List Line
  | cur, a :: b :: rest =>
    match tripleQuote.isSuffixOf a, afterLastQuote b with
    | true, some r => dropQuotes (cur ++ r) rest
    | _, _ => cur :: dropQuotes a (b :: rest)
  | cur, [a] => [cur, a]
  | cur, [] => [cur]

/-- The lines of the class in the script, generate_example_scripts.py 129-133. -/
def scriptSource (source : List Line) : List Line :=
  match dropParams source with
  | [] => []
  | l :: ls => dropQuotes l ls

/-- What is known of an example class. -/
structure ExampleClass where
  name : Line
  mro : List Line
  source : List Line
  vars : List Line
  options : List Line

/-- Four spaces, an option and a comma. -/
def optionLine (o : Line) : Line := "    ".toList ++ o ++ ",".toList

/-- `write_setup`, generate_example_scripts.py 23-53: the lines written, and the exception raised, if any. -/
def writeSetup (c : ExampleClass) : List Line × Option PyErr :=
  let run : List Line := ["prob.setup(force_alloc_complex=True)".toList, "prob.run_model()".toList]
  let opts := c.options.map optionLine
  if "Group".toList ∈ c.mro then
    ("prob = Problem()".toList ::
      (if c.options = [] then ["prob.model = ".toList ++ c.name ++ "()".toList]
       else ("prob.model = ".toList ++ c.name ++ "(".toList) :: opts ++ [")".toList]) ++ run, none)
  else if "Component".toList ∈ c.mro then
    ("prob = Problem()".toList :: "prob.model = Group()".toList ::
      (if c.options = [] then ["prob.model.add_subsystem('example', ".toList ++ c.name ++ "())".toList]
       else "prob.model.add_subsystem(".toList :: "    'example', ".toList ::
         ("    ".toList ++ c.name ++ "(".toList) :: opts ++ ["))".toList]) ++ run, none)
  else (["prob = Problem()".toList], some .typeError)

/-- generate_example_scripts.py 145-147: the lines for one variable. -/
def showVar (v : Line) : List Line :=
  ["print('".toList ++ v ++ "', prob['".toList ++ v ++ "'].shape)".toList,
   "print(prob['".toList ++ v ++ "'])".toList]

/-- generate_example_scripts.py 123-149: the script of a class, and the exception raised while it is written, if any. -/
def writeScript (file : List Line) (c : ExampleClass) : List Line × Option PyErr :=
  let s := writeSetup c
  let before := "from openmdao.api import Problem".toList :: gatherImports file ++ [[], []] ++
    scriptSource c.source ++ [[], []] ++ s.1
  match s.2 with
  | some e => (before, some e)
  | none => (before ++ (if c.vars = [] then [] else [[]]) ++ c.vars.flatMap showVar, none)

/-- generate_example_scripts.py 82-151: the scripts written, in order, up to the first exception. An entry of the list is a
class with the lines of its file. -/
def writeScripts : List (List Line × ExampleClass) → List (Line × List Line) × Option PyErr
  | [] => ([], none)
  | (f, c) :: rest =>
    let s := writeScript f c
    match s.2 with
    | some e => ([(c.name, s.1)], some e)
    | none =>
      let r := writeScripts rest
      ((c.name, s.1) :: r.1, r.2)

end OM
