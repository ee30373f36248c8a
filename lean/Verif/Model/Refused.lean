import Verif.Model.Group

/-!
# Calls with an argument that is not an expression, and what refused calls leave behind

`add_dependency_node` (variable.py 223-242) does not look at what it is given, so a number, a string, a
list or an array passed to `define` or to an indexed assignment ends up in the `dependencies` of the
output before anything raises. Such an object is a reference `r` with `other r = some h`; `h` tells
whether it is hashable (numbers, strings and tuples are, lists and arrays are not). Every call with such
an argument brings a new reference: that two of them may be equal, so that `list(set(…))` keeps one, is
left out, as it makes no difference to which lists hold such an object.

What `__setitem__` raises for such an object depends on the key and on the object (`AttributeError` for
`expr.shape`, `ValueError` for an array scalar, …) and is a parameter. Objects that are neither
expressions nor plain data (an OpenMDAO system, say) are not modelled.
-/

namespace OM

structure XWorld where
  w : World
  /-- `some h`: not an expression -/
  other : Ref → Option Bool

def XWorld.init (env : GEnv) : XWorld := ⟨World.init env, fun _ => none⟩

/-- The calls, now with arguments that may be other objects. -/
inductive XOp
  | api (op : Op)
  /-- `out.define(3)` (`true`), `out.define([3])` (`false`) -/
  | defineOther (out : Ref) (hashable : Bool)
  /-- `out[key] = 3` -/
  | setItemOther (out : Ref) (hashable : Bool) (err : PyErr)
  /-- `group.register_output('y', 3)`: the comparison with the registered outputs or `expr.name = name`
  raises, group.py 340-345 -/
  | registerOther (err : PyErr)
  /-- `out.define_residual(3)` -/
  | residualOther (out : Ref)

/-- An object that is not an expression comes into being. -/
def XWorld.allocOther (x : XWorld) (hashable : Bool) : XWorld :=
  { w := { x.w with next := x.w.next + 1 }
    other := Function.update x.other x.w.next (some hashable) }

/-- A list holds an object `set` does not accept. -/
def unhashable (other : Ref → Option Bool) (l : List Ref) : Bool := l.any fun d => other d == some false

/-- `u.add_dependency_node(v)`, variable.py 240-242: the object is appended; then `list(set(…))`
(364-368) raises `TypeError` if the list holds an unhashable object, and the list stays as it is. -/
def XWorld.addDep (env : GEnv) (x : XWorld) (u v : Ref) : XWorld × Option PyErr :=
  if unhashable x.other (x.w.deps u ++ [v]) then
    ({ x with w := { x.w with deps := Function.update x.w.deps u (x.w.deps u ++ [v]) } },
      some .typeError)
  else ({ x with w := x.w.addDep env u v }, none)

/-- `replaceDep` (replace_output_leaf_nodes.py 18-19) on a list that may hold an unhashable object. -/
def replaceDepX (o : SetOrder Ref) (other : Ref → Option Bool) (root leaf node : Ref) (h : DepHeap) :
    DepHeap × Option PyErr :=
  let l := removeDepNode (h.deps node) root ++ [leaf]
  if unhashable other l then
    (⟨h.ver, Function.update h.lists node (Function.update (h.lists node) (h.ver node) l)⟩,
      some .typeError)
  else (replaceDep o root leaf node h, none)

/-- `replaceScan` that keeps the state when something raises: an object that is not an expression has no
`dependencies` (`AttributeError`, replace_output_leaf_nodes.py 15). -/
def scanX (o : SetOrder Ref) (other : Ref → Option Bool) (root leaf : Ref) :
    Nat → Ref → Nat → Nat → DepHeap → DepHeap × Option PyErr
  | 0, _, _, _, h => (h, some .recursionError)
  | fuel + 1, node, obj, i, h =>
    match (h.lists node obj)[i]? with
    | none => (h, none)
    | some dep =>
      match (if dep = root then replaceDepX o other root leaf node h else (h, none)) with
      | (h1, some err) => (h1, some err)
      | (h1, none) =>
        if (other dep).isSome then (h1, some .attributeError)
        else
          match scanX o other root leaf fuel dep (h1.ver dep) 0 h1 with
          | (h2, some err) => (h2, some err)
          | (h2, none) => scanX o other root leaf fuel node obj (i + 1) h2

/-- `replace_output_leaf_nodes(root, node, Input(root.name, …))`. -/
def XWorld.replace (env : GEnv) (x : XWorld) (root node : Ref) : XWorld × Option PyErr :=
  let leaf := x.w.next
  let w1 := x.w.alloc .input (x.w.name root)
  let r := scanX env.o x.other root leaf env.fuel node 0 0 (DepHeap.ofGraph w1.deps)
  ({ x with w := { w1 with deps := r.1.deps } }, r.2)

/-- explicit_output.py 70-84: `define` after its checks. -/
def XWorld.defineCore (env : GEnv) (x : XWorld) (out e : Ref) : XWorld × Option PyErr :=
  match ({ x with w := { x.w with defined := Function.update x.w.defined out true } } :
      XWorld).addDep env out e with
  | (x1, some err) => (x1, some err)
  | (x1, none) => x1.replace env out out

/-- One call. Calls other than `define`, indexed assignment and `define_residual` never come across an
object that is not an expression (`XOk.places` in Props/Refused.lean), so they are those of `step`. -/
def xstep (env : GEnv) (x : XWorld) : XOp → XWorld × Option PyErr
  | .api (.define out e) =>
    if x.w.kind out ≠ .explicitOut then (x, some .attributeError)
    else if e = out then (x, some .valueError)
    else if x.w.defined out then (x, some .valueError)
    else x.defineCore env out e
  | .defineOther out h =>
    if x.w.kind out ≠ .explicitOut then (x, some .attributeError)
    else if x.w.defined out then (x, some .valueError)
    else (x.allocOther h).defineCore env out x.w.next
  | .api (.setItem out e check) =>
    if x.w.kind out ≠ .explicitOut then (x, some .typeError)
    else
      match x.addDep env out e with
      | (x1, some err) => (x1, some err)
      | (x1, none) =>
        match check with
        | some err => (x1, some err)
        | none => ({ x1 with w := { x1.w with indexed := Function.update x1.w.indexed out true,
                                               defined := Function.update x1.w.defined out true } }, none)
  | .setItemOther out h err =>
    if x.w.kind out ≠ .explicitOut then (x, some .typeError)
    else
      match (x.allocOther h).addDep env out x.w.next with
      | (x1, some err') => (x1, some err')
      | (x1, none) => (x1, some err)
  | .api (.defineResidual out e) =>
    if x.w.kind out ≠ .implicitOut then (x, some .attributeError)
    else if e = out then (x, some .valueError)
    else if x.w.defined out then (x, some .valueError)
    else
      match x.replace env out e with
      | (x1, some err) => (x1, some err)
      | (x1, none) =>
        match x1.w.register env (x1.w.name e) e with
        | (w2, some err) => ({ x1 with w := w2 }, some err)
        | (w2, none) => ({ x1 with w := { w2 with defined := Function.update w2.defined out true } }, none)
  | .residualOther out =>
    if x.w.kind out ≠ .implicitOut then (x, some .attributeError)
    else if x.w.defined out then (x, some .valueError)
    else (x, some .attributeError)
  | .registerOther err => (x, some err)
  | .api op => ({ x with w := (step env x.w op).1 }, (step env x.w op).2)

/-- A history of calls, the user catching what is raised. -/
def xrun (env : GEnv) (x : XWorld) (ops : List XOp) : XWorld :=
  ops.foldl (fun x op => (xstep env x op).1) x

/-- An expression the user can hold. -/
def XWorld.Arg (x : XWorld) (a : Ref) : Prop := 0 < a ∧ a < x.w.next ∧ x.other a = none

/-- The arguments of a call are expressions that exist. -/
def XOp.Valid (x : XWorld) : XOp → Prop
  | .api (.combine args) => ∀ a ∈ args, x.Arg a
  | .api (.getItem a) => x.Arg a
  | .api (.registerOutput _ a) => x.Arg a
  | .api (.define out e) => x.Arg out ∧ x.Arg e
  | .api (.setItem out e _) => x.Arg out ∧ x.Arg e
  | .api (.defineResidual out e) => x.Arg out ∧ x.Arg e
  | .defineOther out _ => x.Arg out
  | .setItemOther out _ _ => x.Arg out
  | .residualOther out => x.Arg out
  | _ => True

def XValidFrom (env : GEnv) : XWorld → List XOp → Prop
  | _, [] => True
  | x, op :: ops => op.Valid x ∧ XValidFrom env (xstep env x op).1 ops

/-- `Variable.register_nodes`, variable.py 244-269: `node._id` raises `AttributeError` for an object that
is not an expression. -/
def registerNodesX (other : Ref → Option Bool) (g : Graph) :
    Nat → Ref → List Ref → Except PyErr (List Ref)
  | 0, _, _ => .error .recursionError
  | limit + 1, u, nodes =>
    (g u).foldlM (fun nodes v =>
      if (other v).isSome then .error .attributeError
      else if v ∈ nodes then .ok nodes
      else registerNodesX other g limit v (nodes ++ [v])) nodes

/-- The exception of Python. -/
def SetupError.py : SetupError → PyErr
  | .recursionError => .recursionError
  | .typeError => .typeError
  | .valueError => .valueError
  | .runtimeError => .runtimeError

/-- `Group.setup` after the user's part: the nodes are registered, then as before. -/
def setupX (env : SetupEnv) (x : XWorld) : Except PyErr (List Ref) :=
  match registerNodesX x.other x.w.deps env.limit 0 [] with
  | .error e => .error e
  | .ok _ =>
    match setupGroup env x.w with
    | .error e => .error e.py
    | .ok comps => .ok comps

end OM
