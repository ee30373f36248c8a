import Verif.Model.ImplProgram
import Verif.Model.Inherit
import Verif.Model.Refused

/-!
# Setting an implicit component up again (`omtools/comps/implicit_component.py` 38-118)

OpenMDAO calls the `setup` of every component whenever the problem is set up. The group of an implicit component is made
once, in `__init__`; it keeps its outputs, and its model keeps the constraints added to it.

Simplifications. As in `Verif.Model.ImplProgram` and `Verif.Model.Collect`. OpenMDAO forgets the variables of a component
when it is set up again, and its `add_constraint` raises `RuntimeError` for a name that was added before (trusted).
`add_design_var` is called for new names only. The initial values, 104-111, are treated in `Verif.Model.Implicit`. If
sorting the group raises, the group is left as before.
-/

namespace OM

/-- An implicit component: its group, the residuals with the names of their outputs (`is_residual` and `res_out_map`), and
the names of the constraints of the internal model. -/
structure ImplComp where
  group : SetupState
  res : List (Ref × String)
  constraints : List String

/-- `__init__`, 147-162. -/
def ImplComp.init (genv : GEnv) : ImplComp := ⟨SetupState.init genv, [], []⟩

/-- The loop 48-100: the constraints added, also if it raises, and the variables of the component. -/
def residualLoop (w : World) (o : SetOrder Ref) (limit : Nat) : ImplInterface → List String → List (Ref × String) →
    List String × Except PyErr ImplInterface
  | i, names, [] => (names, .ok i)
  | i, names, r :: rs =>
    match i.addResidual w o limit r with
    | .error e => (names, .error e)
    | .ok i' =>
      if w.name r.1 ∈ names then (names, .error .runtimeError)
      else residualLoop w o limit i' (names ++ [w.name r.1]) rs

/-- The `setup` of the component, 38-102, where the user's `setup` makes the calls `prog`: the variables of the component
and the components of its group. -/
def ImplComp.setup (genv : GEnv) (senv : SetupEnv) (o : SetOrder Ref) (c : ImplComp) (prog : List ImplStmt) :
    ImplComp × Except PyErr (ImplInterface × List Ref) :=
  let s := c.group.calls genv (implOps prog)
  let res := c.res ++ residualsFrom genv c.group.world prog
  let w := s.world.removeNonresiduals res
  let l := residualLoop w o senv.limit ⟨[], [], []⟩ c.constraints
    ((w.deps 0).filterMap fun x => res.find? fun r => r.1 == x)
  let c' : ImplComp := ⟨{ s with world := w }, res, l.1⟩
  match l.2 with
  | .error e => (c', .error e)
  | .ok i =>
    match postSetup senv c'.group with
    | .error e => (c', .error e.py)
    | .ok (g, comps) => ({ c' with group := g }, .ok (i, comps))

end OM
