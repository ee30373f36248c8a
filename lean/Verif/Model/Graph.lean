import Mathlib.Data.List.Basic
import Mathlib.Data.List.Nodup
import Mathlib.Data.List.Sort
import Mathlib.Logic.Function.Basic

/-!
# Model of the expression graph (`omtools/core/graph.py`, `omtools/core/variable.py`)

`Variable` objects are references (`Ref`), their mutable fields are functions on references.
Python `is`, `==` and hashing of `Variable` objects are all by identity, so they are equality of
references.
-/

namespace OM

/-- Reference to a `Variable` object (its identity). -/
notation "Ref" => Nat

/-- `list(set(xs))`: a duplicate free list with the same elements as `xs`, in an order the program
does not control (hash of an object is derived from its address). During one run of the program the
order is a function of the list, so one `SetOrder` describes one run. -/
structure SetOrder (α : Type) where
  list : List α → List α
  nodup : ∀ xs, (list xs).Nodup
  mem_iff : ∀ xs a, a ∈ list xs ↔ a ∈ xs

/-- The set order iterates sets of numbers below `k` in ascending order. CPython does so for `k = 8`:
such numbers sit in the hash table at their own position (see `Verif/Model/PySet.lean`). -/
def AscendingBelow (o : SetOrder Nat) (k : Nat) : Prop :=
  ∀ xs, (∀ i ∈ xs, i < k) → (o.list xs).Pairwise (· < ·)

/-- The set order iterates sets of numbers below `k` in ascending order if they have at most `r` or at least `m`
elements. CPython's tables grow with the number of elements: for `r = 1` it does so whenever `k` is at most the number of
slots of a table of `m` elements (`pyOrder_sets`), more than `5 m / 3`. -/
def AscendingSets (o : SetOrder Nat) (r m k : Nat) : Prop :=
  ∀ xs, (∀ i ∈ xs, i < k) → ((o.list xs).length ≤ r ∨ m ≤ (o.list xs).length) →
    (o.list xs).Pairwise (· < ·)

/-- The field `Variable.dependencies` (or `Variable.dependents`) of all objects. -/
abbrev Graph := Ref → List Ref

/-- The possible outcomes of `Group.setup` other than success. -/
inductive SetupError
  | recursionError      -- Python's recursion limit is reached
  | typeError           -- `del node[name]` on a `Variable`
  | valueError          -- "Output not defined for ...", "Name collision ..."
  | runtimeError        -- OpenMDAO's `add_subsystem`: name already used
  deriving DecidableEq, Repr

/-- `Variable.add_dependency_node` and `_dedup_dependencies`, variable.py 223-242, 364-368. -/
def addDep (o : SetOrder Ref) (g : Graph) (u v : Ref) : Graph :=
  Function.update g u (o.list (g u ++ [v]))

/-- `Variable.get_dependency_index`, variable.py 279-301 (on the list `self.dependencies`). -/
def depIndex (l : List Ref) (c : Ref) : Option Nat := l.findIdx? (· == c)

/-- `Variable.remove_dependency_by_index`, variable.py 303-316: `list.remove` deletes the first
element equal to the one at `index`; nothing happens if `index` is out of range. -/
def removeByIndex (l : List Ref) (i : Nat) : List Ref :=
  match l[i]? with
  | some a => l.erase a
  | none => l

/-- `Variable.remove_dependency_node`, variable.py 370-383. -/
def removeDepNode (l : List Ref) (c : Ref) : List Ref :=
  match depIndex l c with
  | some i => removeByIndex l i
  | none => l

/-- The list `remove` built by graph.py 18-23 for `node = u`. -/
def removeCandidates (g : Graph) (u : Ref) : List Nat :=
  (g u).flatMap fun child => (g child).filterMap fun grandchild => depIndex (g u) grandchild

/-- The new `node.dependencies` computed by `remove_indirect_dependencies`, graph.py 5-33.
`o` is the iteration order of the set of integers in line 25. -/
def reducedDeps (o : SetOrder Nat) (g : Graph) (u : Ref) : List Ref :=
  let remove := o.list (removeCandidates g u)
  let terminalIndex := if remove.length = (g u).length then 1 else 0
  remove.reverse.foldl (fun l i => if terminalIndex ≤ i then removeByIndex l i else l) (g u)

/-- `remove_indirect_dependencies(node)`, graph.py 5-33. -/
def removeIndirect (o : SetOrder Nat) (g : Graph) (u : Ref) : Graph :=
  Function.update g u (reducedDeps o g u)

/-- `Variable.register_nodes`, variable.py 244-269. The dictionary `nodes` is the list of its
values in insertion order. It is keyed by `_id`, which is different for different objects as long as
`gen_hex_name` has no collision (see property C15), so the error branch is unreachable and omitted.
The first argument is the number of nested calls Python still allows; `none` is `RecursionError`. -/
def registerNodes (g : Graph) : Nat → Ref → List Ref → Option (List Ref)
  | 0, _, _ => none
  | limit + 1, u, nodes =>
    (g u).foldlM (fun nodes v =>
      if v ∈ nodes then some nodes else registerNodes g limit v (nodes ++ [v])) nodes

/-- `Variable.add_fwd_edges` and `add_dependent_node`, variable.py 214-221, updating the fields
`dependents`. First argument as in `registerNodes`. -/
def addFwdEdges (o : SetOrder Ref) (g : Graph) : Nat → Ref → Graph → Option Graph
  | 0, _, _ => none
  | limit + 1, u, dependents =>
    (g u).foldlM (fun d v =>
      addFwdEdges o g limit v (Function.update d v (o.list (d v ++ [u])))) dependents

/-- `Variable.compute_dag_cost`, variable.py 318-341, updating the fields `_dag_cost`. The state is
threaded; costs accumulate when a node is visited again, as in the code. -/
def dagCost (g : Graph) : Nat → Ref → (Ref → Nat) → Option (Ref → Nat)
  | 0, _, _ => none
  | limit + 1, u, cost =>
    (g u).foldlM (fun c v =>
      (dagCost g limit v c).map fun c' => Function.update c' u (c u + c' v)) cost

/-- `Variable.sort_dependency_branches`, variable.py 343-362. `sorted` is stable, also with
`reverse=True`; insertion sort is the stable sort that is easiest to compute with. -/
def sortBranches (cost : Ref → Nat) (reverse : Bool) (l : List Ref) : List Ref :=
  if reverse then l.insertionSort (fun a b => cost b ≤ cost a)
  else l.insertionSort (fun a b => cost a ≤ cost b)

/-- State of the loop of `topological_sort`: `stack` with its top first, the fields `times_visited`,
and `sorted_nodes`. -/
structure TopoState where
  stack : List Ref
  visits : Ref → Nat
  sorted : List Ref

/-- One iteration of the loop of `topological_sort`, graph.py 72-89; `none` if the stack is empty. -/
def topoStep (g dependents : Graph) (s : TopoState) : Option TopoState :=
  match s.stack with
  | [] => none
  | v :: rest =>
    if s.visits v ≤ (dependents v).length then
      let visits := Function.update s.visits v (s.visits v + 1)
      let stack := if (dependents v).length ≤ visits v then (g v).reverse ++ rest else rest
      let sorted := if visits v = (dependents v).length then s.sorted ++ [v] else s.sorted
      some ⟨stack, visits, sorted⟩
    else some { s with stack := rest }

/-- `n` iterations of the loop (fewer if the stack runs empty). -/
def topoIter (g dependents : Graph) : Nat → TopoState → TopoState
  | 0, s => s
  | n + 1, s =>
    match topoStep g dependents s with
    | none => s
    | some s' => topoIter g dependents n s'

end OM
