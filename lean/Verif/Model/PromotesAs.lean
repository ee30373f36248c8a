import Verif.Model.Promotes

/-!
# Promotion under another name

`promotes=[('x', 'y'), …]` for `Group.add_subsystem` (group.py 349-395), handed to OpenMDAO as in `Verif.Model.Promotes`
(group.py 92-108). OpenMDAO: a variable that a pair is given for is called by the second name of the pair, also if a
pattern matches it.

Simplifications. As in `Verif.Model.Promotes`. A variable is not given in a pair and literally as well; of several pairs
for one variable the first one counts.
-/

namespace OM

/-- The pairs given with `promotes`, `promotes_inputs` and `promotes_outputs`. -/
structure Renames where
  any : List (String × String)
  inputs : List (String × String)
  outputs : List (String × String)

/-- A call of `Group.add_subsystem` with patterns and pairs. -/
structure RenamingCall where
  call : SubCall
  pairs : Renames

/-- OpenMDAO: the name of a variable of a subsystem in the group. -/
def promotedAs (sys : String) (p : Promotes) (r : Renames) (v : SubVar) : String :=
  match (r.any ++ if v.output then r.outputs else r.inputs).find? fun q => q.1 == v.name with
  | some q => q.2
  | none => promotedName sys p v

/-- group.py 93-108: name, patterns and pairs handed to OpenMDAO. -/
def RenamingCall.handed (c : RenamingCall) : String × Promotes × Renames :=
  if c.call.group then (c.call.name, c.call.promotes, c.pairs)
  else ("comp_" ++ c.call.name, ⟨[fun _ => true], [], []⟩, ⟨[], [], []⟩)

/-- What the variable is called. -/
def RenamingCall.called (c : RenamingCall) (v : SubVar) : String :=
  promotedAs c.handed.1 c.handed.2.1 c.handed.2.2 v

end OM
