import Verif.Model.Refused

/-!
# `create_group` when its block raises (group.py 397-422)

`with self.create_group(name) as group:` adds the new group as a subsystem, runs the block, and calls
`group.setup()` in `finally`, also when the block raises.

Simplification: the calls of the block are calls on the new group, with objects of the new group.
-/

namespace OM

/-- The calls of a block up to the first one that raises, and what it raises; `own` is what the rest of the
block raises, if anything, when no call does. -/
def runBody (env : GEnv) (own : Option PyErr) : World → List Op → World × Option PyErr
  | w, [] => (w, own)
  | w, op :: ops =>
    match step env w op with
    | (w', some e) => (w', some e)
    | (w', none) => runBody env own w' ops

/-- What a block leaves behind: the group around it, the new group, and the exception that leaves the
`with` statement. -/
structure BlockEnd where
  parent : World
  child : World
  raised : Option PyErr

/-- group.py 416-422. An exception raised in `finally` replaces that of the block. -/
def createGroup (penv cenv : GEnv) (senv : SetupEnv) (parent : World) (name : String) (body : List Op)
    (own : Option PyErr) : BlockEnd :=
  let p := (step penv parent (.addSubsystem name)).1
  let b := runBody cenv own (World.init cenv) body
  match setupGroup senv b.1 with
  | .error e => ⟨p, b.1, some e.py⟩
  | .ok _ => ⟨p, b.1, b.2⟩

end OM
