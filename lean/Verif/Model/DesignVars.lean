import Verif.Model.Group

/-!
# Model of the loop that adds components and design variables (`omtools/core/group.py` 80-119)

`buildAll` and `setupNamed` (`Model/Group.lean`) describe the components only, and let the check of the
outputs run before OpenMDAO's check of the names. Here the loop is modelled as written: for every
expression in turn, the check of the output, the new subsystem, the design variable.
-/

namespace OM

/-- What the loop has passed to OpenMDAO: names of subsystems and names of design variables. -/
structure Added where
  comps : List String
  dvs : List String
  deriving DecidableEq, Repr

/-- OpenMDAO's `Group.add_subsystem`, as far as names go: `RuntimeError` for a name in use. -/
def Added.addSubsystem (s : Added) (n : String) : Except SetupError Added :=
  if n ∈ s.comps then .error .runtimeError else .ok { s with comps := s.comps ++ [n] }

/-- OpenMDAO's `System.add_design_var`, as far as names go: `RuntimeError` for a name in use. -/
def Added.addDesignVar (s : Added) (n : String) : Except SetupError Added :=
  if n ∈ s.dvs then .error .runtimeError else .ok { s with dvs := s.dvs ++ [n] }

/-- One round of the loop, group.py 81-117; `dv` is the attribute `Indep.dv` (indep.py 34). -/
def loopStep (isGroup dv : Ref → Bool) (w : World) (s : Added) (u : Ref) : Except SetupError Added :=
  -- group.py 82-84
  if (w.kind u = .explicitOut ∨ w.kind u = .implicitOut) ∧ w.defined u = false then .error .valueError
  else
    -- group.py 90-108
    match (if w.kind u = .input ∨ w.kind u = .implicitOut ∨ w.kind u = .item ∨ w.kind u = .root then .ok s
      else s.addSubsystem (compName isGroup w u)) with
    | .error e => .error e
    | .ok s =>
      -- group.py 114-117
      if w.kind u = .indep ∧ dv u = true then s.addDesignVar (w.name u) else .ok s

/-- `Group.setup` after the user's part, group.py 43-119. -/
def setupLoop (env : SetupEnv) (id : Ref → String) (isGroup dv : Ref → Bool) (w : World) :
    Except SetupError Added :=
  match registerNodesChecked id w.deps env.limit 0 [] with
  | .error e => .error e
  | .ok _ =>
    match sortExpressions env (fun u => w.kind u == .indep) 0 (GState.fresh w.deps) with
    | .error e => .error e
    | .ok (_, sorted) => sorted.reverse.foldlM (loopStep isGroup dv w) ⟨[], []⟩

end OM
