/-!
# The names of the generated example scripts

`omtools/utils/generate_example_scripts.py`: every class of a file in `omtools/examples` whose name starts with `Example`
or `Error` is written to a script of its own, in `examples/valid` or `examples/invalid`.

Simplifications: names are ASCII (the regular expressions mention ASCII letters only; `str.lower` of other characters is
not modelled), a script is identified with the class it was made from, and `os.listdir`, `inspect.getmembers` are the
list of files with the list of names of their classes, in any order.
-/

namespace OM

/-- `re.sub('(.)([A-Z][a-z]+)', r'\1_\2', name)`, generate_example_scripts.py 18. The flag says that the preceding characters
are those matched by `[A-Z][a-z]+`, to which further small letters belong. -/
def splitWords : Bool → List Char → List Char
  | tail, x :: u :: l :: rest =>
    if tail && x.isLower then x :: splitWords true (u :: l :: rest)
    else if u.isUpper && l.isLower then x :: '_' :: u :: l :: splitWords true rest
    else x :: splitWords false (u :: l :: rest)
  | _, rest => rest

/-- `re.sub('([a-z0-9])([A-Z])', r'\1_\2', …)`, generate_example_scripts.py 15-17. -/
def splitCapitals : List Char → List Char
  | x :: u :: rest =>
    if (x.isLower || x.isDigit) && u.isUpper then x :: '_' :: u :: splitCapitals rest
    else x :: splitCapitals (u :: rest)
  | rest => rest

/-- `camel_to_snake`, generate_example_scripts.py 14-19. -/
def camelToSnake (name : List Char) : List Char := (splitCapitals (splitWords false name)).map Char.toLower

/-- Where a script goes, generate_example_scripts.py 10-11. -/
inductive ScriptDir | invalid | valid
  deriving DecidableEq, Repr

/-- `get_example_file_name`, generate_example_scripts.py 54-72, with the directory chosen in lines 114-119. `base` is the name of
the source file without directory and `.py`. `none` if no script is made. -/
def exampleScript (base cls : List Char) : Option (ScriptDir × List Char) :=
  let snake := camelToSnake cls
  let file (k : Nat) := base ++ '_' :: snake.drop k ++ ".py".toList
  if snake.take 8 = "example_".toList then some (.valid, file 8)
  else if snake.take 6 = "error_".toList then some (.invalid, file 6)
  else none

/-- `export_examples`, generate_example_scripts.py 82-151: the scripts written, in order, and the classes they are made from. -/
def exportWrites (files : List (List Char × List (List Char))) :
    List ((ScriptDir × List Char) × (List Char × List Char)) :=
  files.flatMap fun f => f.2.filterMap fun cls => (exampleScript f.1 cls).map fun p => (p, (f.1, cls))

/-- The content of a script afterwards: `open(file_path, 'w')` replaces what was written before. -/
def exported (files : List (List Char × List (List Char))) (path : ScriptDir × List Char) :
    Option (List Char × List Char) :=
  ((exportWrites files).reverse.find? fun w => w.1 = path).map Prod.snd

end OM
