import Verif.Model.Graph

/-!
# Model of the work done by `Group.setup` (`omtools/core/group.py`, `_post_setup`)
-/

namespace OM

/-- What a run of the program does not control: iteration order of sets of objects and of sets of
integers, the number of nested calls Python allows; and the option `reverse_branch_sorting`. -/
structure SetupEnv where
  ov : SetOrder Ref
  oi : SetOrder Nat
  limit : Nat
  reverse : Bool

/-- The mutable fields `dependencies`, `dependents`, `times_visited`, `_dag_cost` of all `Variable`
objects and the dictionary `Group.nodes`. -/
structure GState where
  deps : Graph
  dependents : Graph
  visits : Ref → Nat
  cost : Ref → Nat
  nodes : List Ref

/-- Field values of freshly created objects, variable.py 130-134, group.py 154. -/
def GState.fresh (deps : Graph) : GState :=
  { deps := deps, dependents := fun _ => [], visits := fun _ => 0, cost := fun _ => 1, nodes := [] }

/-- group.py 44-49: every node that is not an independent variable gets all independent variables
among the dependencies of the root as dependencies. -/
def addIndeps (ov : SetOrder Ref) (isIndep : Ref → Bool) (root : Ref) (nodes : List Ref)
    (g : Graph) : Graph :=
  nodes.foldl (fun g u =>
    (g root).foldl (fun g' i =>
      if isIndep i then (if isIndep u then g' else addDep ov g' u i) else g') g) g

/-- group.py 53-54. -/
def removeIndirectAll (oi : SetOrder Nat) (nodes : List Ref) (g : Graph) : Graph :=
  nodes.foldl (removeIndirect oi) g

/-- group.py 70-72. -/
def sortAll (cost : Ref → Nat) (reverse : Bool) (nodes : List Ref) (g : Graph) : Graph :=
  nodes.foldl (fun g u => Function.update g u (sortBranches cost reverse (g u))) g

/-- Number of loop iterations granted to the model of `topological_sort`; theorem
`OM.c03_terminates` shows that the loop has ended by then for every graph. -/
def topoBound (g : Graph) (univ : List Ref) : Nat := 2 * (univ.map fun v => (g v).length).sum + 1

/-- group.py 41-77: everything between the user's `setup` and the construction of components.
The result is the list `self.sorted_expressions` (root to leaf). -/
def sortExpressions (env : SetupEnv) (isIndep : Ref → Bool) (root : Ref) (st : GState) :
    Except SetupError (GState × List Ref) :=
  match registerNodes st.deps env.limit root st.nodes with
  | none => .error .recursionError
  | some nodes =>
    let g1 := addIndeps env.ov isIndep root nodes st.deps
    let g2 := removeIndirectAll env.oi nodes g1
    match addFwdEdges env.ov g2 env.limit root st.dependents with
    | none => .error .recursionError
    | some dependents =>
      if nodes.any (fun v => (dependents v).length == 0) then .error .typeError
      else
        match dagCost g2 env.limit root st.cost with
        | none => .error .recursionError
        | some cost =>
          let g3 := sortAll cost env.reverse nodes g2
          let s := topoIter g3 dependents (topoBound g3 (root :: nodes)) ⟨[root], st.visits, []⟩
          .ok (⟨g3, dependents, s.visits, cost, nodes⟩, s.sorted)

end OM
