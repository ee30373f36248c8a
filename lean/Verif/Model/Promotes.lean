import Verif.Model.Graph

/-!
# Promoted names of subsystems

`Group.add_subsystem` and the end of `_post_setup` (group.py 92-108, 349-395), `subsystem.py` 9-25.

OpenMDAO: a variable `v` of a subsystem `s` is called `v` in the group if one of the patterns given to `add_subsystem`
matches it, and `s.v` otherwise; `promotes` is for inputs and outputs, the other two for one of them; two outputs with
the same name in the group are an error.

Simplifications: a pattern is any predicate on names. OpenMDAO's error for a pattern that matches nothing and
promotion under another name (pairs, see `Verif.Model.PromotesAs`) are left out.
-/

namespace OM

/-- A variable of a subsystem. -/
structure SubVar where
  name : String
  output : Bool

/-- The patterns given to `add_subsystem`; `None` is the empty list. -/
structure Promotes where
  any : List (String → Bool)
  inputs : List (String → Bool)
  outputs : List (String → Bool)

/-- A call of `Group.add_subsystem`; `group` says whether `subsys` is an OpenMDAO group (of omtools or not). -/
structure SubCall where
  name : String
  group : Bool
  vars : List SubVar
  promotes : Promotes

/-- OpenMDAO: the name of a variable of a subsystem in the group. -/
def promotedName (sys : String) (p : Promotes) (v : SubVar) : String :=
  if (p.any ++ if v.output then p.outputs else p.inputs).any (fun f => f v.name) then v.name
  else sys ++ "." ++ v.name

/-- group.py 93-108: name and patterns handed to OpenMDAO. -/
def SubCall.handed (c : SubCall) : String × Promotes :=
  if c.group then (c.name, c.promotes) else ("comp_" ++ c.name, ⟨[fun _ => true], [], []⟩)

/-- The names of the outputs of all subsystems in the group. -/
def outputNames (cs : List SubCall) : List String :=
  cs.flatMap fun c => (c.vars.filter SubVar.output).map (promotedName c.handed.1 c.handed.2)

/-- OpenMDAO's set-up of the group: outputs with equal names are refused. -/
def checkOutputs (cs : List SubCall) : Except SetupError Unit :=
  if (outputNames cs).Nodup then .ok () else .error .runtimeError

end OM
