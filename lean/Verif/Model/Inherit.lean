import Verif.Model.Group

/-!
# Subclasses that extend `setup` (group.py 19-39, 125-128)

The metaclass replaces the `setup` of every class, that of `Group` included, by one that calls the given method and
then sorts and builds. So `super().setup()` sorts and builds in the middle of the user's `setup`.

Simplifications. Classes have one base each. Exceptions raised by calls of the user's `setup` are caught there. Which
components are added is modelled, not their names.
-/

namespace OM

/-- The state of a group in the middle of its setup: what the user's calls see, and the fields that the setup uses. -/
structure SetupState where
  world : World
  dependents : Graph
  visits : Ref → Nat
  cost : Ref → Nat
  nodes : List Ref

/-- A new group, group.py 152-162. -/
def SetupState.init (genv : GEnv) : SetupState :=
  { world := World.init genv, dependents := fun _ => [], visits := fun _ => 0, cost := fun _ => 1, nodes := [] }

/-- Calls of the user. -/
def SetupState.calls (genv : GEnv) (s : SetupState) (ops : List Op) : SetupState :=
  { s with world := run genv s.world ops }

/-- group.py 41-117: the components added. -/
def postSetup (senv : SetupEnv) (s : SetupState) : Except SetupError (SetupState × List Ref) :=
  match sortExpressions senv (fun u => s.world.kind u == .indep) 0
      ⟨s.world.deps, s.dependents, s.visits, s.cost, s.nodes⟩ with
  | .error e => .error e
  | .ok (st, sorted) =>
    match buildAll s.world sorted.reverse with
    | .error e => .error e
    | .ok comps => .ok (⟨{ s.world with deps := st.deps }, st.dependents, st.visits, st.cost, st.nodes⟩, comps)

/-- The `setup` methods of a class and of its bases. -/
inductive SetupCode
  /-- `Group.setup`, which does nothing, group.py 170-171 -/
  | base
  /-- a `setup` that does not call that of the base class -/
  | plain (ops : List Op)
  /-- a `setup` that makes the calls `before`, calls `super().setup()`, and makes the calls `after` -/
  | extend (before : List Op) (sup : SetupCode) (after : List Op)

/-- What the metaclass does with the body of a class, group.py 125-128: without `setup` in the body, `attr['setup']`
raises. -/
def classStatement : Option SetupCode → Except PyErr SetupCode
  | none => .error .keyError
  | some code => .ok code

/-- A call of `setup`: the components added in this call and in those of the bases. -/
def runSetup (genv : GEnv) (senv : SetupEnv) : SetupCode → SetupState → Except SetupError (SetupState × List Ref)
  | .base, s => postSetup senv s
  | .plain ops, s => postSetup senv (s.calls genv ops)
  | .extend before sup after, s =>
    match runSetup genv senv sup (s.calls genv before) with
    | .error e => .error e
    | .ok (s1, comps) =>
      match postSetup senv (s1.calls genv after) with
      | .error e => .error e
      | .ok (s2, more) => .ok (s2, comps ++ more)

end OM
