import Verif.Model.ImplAgain

/-!
# Subclasses of implicit components that extend `setup` (`omtools/comps/implicit_component.py` 38-126, 165-166)

As in `Verif.Model.Inherit`, the metaclass replaces the `setup` of every class, that of `ImplicitComponent` included. So
`super().setup()` declares the variables of the component and sets the internal problem up in the middle of the user's
`setup`, and both are done again at its end.

Simplifications. As in `Verif.Model.ImplAgain` and `Verif.Model.Inherit`. Setting the internal problem up again discards its
components (trusted), so those of the last setup are the ones it has.
-/

namespace OM

/-- Calls of the user's `setup`. -/
def ImplComp.calls (genv : GEnv) (c : ImplComp) (prog : List ImplStmt) : ImplComp :=
  ⟨c.group.calls genv (implOps prog), c.res ++ residualsFrom genv c.group.world prog, c.constraints⟩

/-- What follows the user's `setup`, 41-102, with the variables that the component has already: its variables and the
components of the internal problem. -/
def ImplComp.post (senv : SetupEnv) (o : SetOrder Ref) (c : ImplComp) (i : ImplInterface) :
    ImplComp × Except PyErr (ImplInterface × List Ref) :=
  let w := c.group.world.removeNonresiduals c.res
  let l := residualLoop w o senv.limit i c.constraints ((w.deps 0).filterMap fun x => c.res.find? fun r => r.1 == x)
  let c' : ImplComp := ⟨{ c.group with world := w }, c.res, l.1⟩
  match l.2 with
  | .error e => (c', .error e)
  | .ok i' =>
    match postSetup senv c'.group with
    | .error e => (c', .error e.py)
    | .ok (g, comps) => ({ c' with group := g }, .ok (i', comps))

/-- The `setup` methods of a class and of its bases. -/
inductive ImplCode
  /-- `ImplicitComponent.setup`, which does nothing, 165-166 -/
  | base
  /-- a `setup` that does not call that of the base class -/
  | plain (prog : List ImplStmt)
  /-- a `setup` that makes the calls `before`, calls `super().setup()`, and makes the calls `after` -/
  | extend (before : List ImplStmt) (sup : ImplCode) (after : List ImplStmt)

/-- A call of `setup`. -/
def runImpl (genv : GEnv) (senv : SetupEnv) (o : SetOrder Ref) : ImplCode → ImplComp → ImplInterface →
    ImplComp × Except PyErr (ImplInterface × List Ref)
  | .base, c, i => c.post senv o i
  | .plain prog, c, i => (c.calls genv prog).post senv o i
  | .extend before sup after, c, i =>
    match runImpl genv senv o sup (c.calls genv before) i with
    | (c1, .error e) => (c1, .error e)
    | (c1, .ok (i1, _)) => (c1.calls genv after).post senv o i1

end OM
