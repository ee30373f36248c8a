import Verif.Model.Graph

/-!
# Model of `replace_output_leaf_nodes` (`omtools/utils/replace_output_leaf_nodes.py`)

The function changes `node.dependencies` while looping over it, so list objects are modelled:
`u.dependencies` is bound to version `ver u` of the list objects of `u`; older versions can still be
looped over.
-/

namespace OM

structure DepHeap where
  ver : Ref → Nat
  lists : Ref → Nat → List Ref

/-- `u.dependencies`. -/
def DepHeap.deps (h : DepHeap) : Graph := fun u => h.lists u (h.ver u)

def DepHeap.ofGraph (g : Graph) : DepHeap := ⟨fun _ => 0, fun u _ => g u⟩

/-- Lines 18-19: `node.remove_dependency_node(root)` deletes in place; `node.add_dependency_node(leaf)`
appends in place, then binds `node.dependencies` to a new list (variable.py 240-242, 364-368). -/
def replaceDep (o : SetOrder Ref) (root leaf node : Ref) (h : DepHeap) : DepHeap :=
  let l := removeDepNode (h.deps node) root ++ [leaf]
  { ver := Function.update h.ver node (h.ver node + 1)
    lists := Function.update h.lists node
      (Function.update (Function.update (h.lists node) (h.ver node) l) (h.ver node + 1) (o.list l)) }

/-- `replace_output_leaf_nodes(root, node, leaf)`, lines 6-20, from position `i` of the loop over list
object `obj` of `node` (which was `node.dependencies` when the loop started). The first argument
bounds the height of the computation (nested calls plus loop iterations); `none` if that does not
suffice. -/
def replaceScan (o : SetOrder Ref) (root leaf : Ref) : Nat → Ref → Nat → Nat → DepHeap → Option DepHeap
  | 0, _, _, _, _ => none
  | fuel + 1, node, obj, i, h =>
    match (h.lists node obj)[i]? with
    | none => some h
    | some dep =>
      let h1 := if dep = root then replaceDep o root leaf node h else h
      match replaceScan o root leaf fuel dep (h1.ver dep) 0 h1 with
      | none => none
      | some h2 => replaceScan o root leaf fuel node obj (i + 1) h2

/-- `replace_output_leaf_nodes(root, node, leaf)`. -/
def replaceLeafNodes (o : SetOrder Ref) (fuel : Nat) (root node leaf : Ref) (g : Graph) :
    Option Graph :=
  (replaceScan o root leaf fuel node 0 0 (DepHeap.ofGraph g)).map DepHeap.deps

end OM
