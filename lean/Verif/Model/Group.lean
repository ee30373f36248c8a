import Verif.Model.Err
import Verif.Model.Setup
import Verif.Model.Replace

/-!
# Model of the user API of one `Group` (`omtools/core/group.py`, `explicit_output.py`,
`implicit_output.py`, `indep.py`, `input.py`, `subsystem.py`, parts of `variable.py`)

Object `0` is the group's `_root`. Every call of the API is an `Op`; `step` gives the new state and
the exception raised, if any (effects that happened before the exception stay).
-/

namespace OM

/-- Classes of the objects. `decomp` is the hidden object made by `__getitem__`, `item` an expression
returned by it (variable.py 197-199: a plain `Variable`, whose `build` stays `None`, line 132; its value
is written by the component of the `decomp`); `expr` is any expression made by arithmetic or a function
of the package. -/
inductive Kind
  | root | input | indep | explicitOut | implicitOut | subsystem | decomp | item | expr
  deriving DecidableEq, Repr

/-- The state of a group while the user's `setup` runs. `next` is the number of objects so far. -/
structure World where
  next : Nat
  kind : Ref → Kind
  deps : Graph
  name : Ref → String
  recent : Option Ref             -- `_most_recently_added_subsystem`
  defined : Ref → Bool            -- `Output.defined`
  indexed : Ref → Bool            -- `ExplicitOutput.indexed_assignment`
  decomp : Ref → Option Ref       -- `Variable._decomp`

/-- What a run does not control: order of sets of objects, computation height available to
`replace_output_leaf_nodes`, and the generated names (`gen_hex_name`, property C15). -/
structure GEnv where
  o : SetOrder Ref
  fuel : Nat
  autoName : Ref → String

/-- `Group.__init__`, group.py 135-162: only the root exists. -/
def World.init (env : GEnv) : World :=
  { next := 1, kind := fun u => if u = 0 then .root else .expr, deps := fun _ => [], name := env.autoName, recent := none,
    defined := fun _ => false, indexed := fun _ => false, decomp := fun _ => none }

/-- The calls of the API. Arguments of type `Ref` are objects the user got from earlier calls. -/
inductive Op
  | declareInput (name : String)
  | createIndep (name : String)
  | createOutput (name : String)
  | createImplicit (name : String)
  /-- any operator or function of expressions -/
  | combine (args : List Ref)
  /-- `x[key]` with a valid key used for the first time (a repeated key changes nothing) -/
  | getItem (x : Ref)
  | registerOutput (name : String) (x : Ref)
  | addSubsystem (name : String)
  | define (out e : Ref)
  /-- `out[key] = e`; the second part is the outcome of the checks of the key -/
  | setItem (out e : Ref) (check : Option PyErr)
  | defineResidual (out e : Ref)

/-- `Variable.__init__`, variable.py 122-140: a new object without dependencies. -/
def World.alloc (w : World) (k : Kind) (name : String) : World :=
  { w with next := w.next + 1, kind := Function.update w.kind w.next k,
           name := Function.update w.name w.next name }

/-- `u.add_dependency_node(v)`. -/
def World.addDep (env : GEnv) (w : World) (u v : Ref) : World :=
  { w with deps := OM.addDep env.o w.deps u v }

/-- `Group.register_output`, group.py 316-347. -/
def World.register (env : GEnv) (w : World) (name : String) (x : Ref) : World × Option PyErr :=
  if w.kind x = .input then (w, some .typeError)
  else if x ∈ w.deps 0 then (w, some .valueError)
  else (({ w with name := Function.update w.name x name } : World).addDep env 0 x, none)

/-- One API call. -/
def step (env : GEnv) (w : World) : Op → World × Option PyErr
  -- group.py 173-211
  | .declareInput name =>
    let i := w.next
    let w1 := w.alloc .input name
    (match w.recent with
      | some s => w1.addDep env i s
      | none => w1, none)
  -- group.py 213-252
  | .createIndep name =>
    let i := w.next
    let w1 := w.alloc .indep name
    let w2 := match w.recent with
      | some s => w1.addDep env s i
      | none => w1
    w2.register env name i
  -- group.py 254-283
  | .createOutput name => ((w.alloc .explicitOut name).addDep env 0 w.next, none)
  -- group.py 285-314
  | .createImplicit name => (w.alloc .implicitOut name, none)
  -- variable.py 403-718 and the classes in omtools/std, omtools/lib: one `add_dependency_node` per
  -- argument
  | .combine args =>
    (args.foldl (fun w' a => w'.addDep env w.next a) (w.alloc .expr (env.autoName w.next)), none)
  -- variable.py 142-212
  | .getItem x =>
    let w1 := match w.decomp x with
      | some _ => w
      | none => { ((w.alloc .decomp ("decompose_" ++ w.name x)).addDep env w.next x) with
                  decomp := Function.update w.decomp x (some w.next) }
    match w1.decomp x with
    | some d => ((w1.alloc .item (env.autoName w1.next)).addDep env w1.next d, none)
    | none => (w1, some .attributeError)
  | .registerOutput name x => w.register env name x
  -- group.py 349-395
  | .addSubsystem name =>
    let s := w.next
    let w1 := (w.deps 0).foldl (fun w' d => w'.addDep env s d) (w.alloc .subsystem name)
    ({ w1.addDep env 0 s with recent := some s }, none)
  -- explicit_output.py 47-84
  | .define out e =>
    if w.kind out ≠ .explicitOut then (w, some .attributeError)
    else if e = out then (w, some .valueError)
    else if w.defined out then (w, some .valueError)
    else
      let w1 := ({ w with defined := Function.update w.defined out true } : World).addDep env out e
      let leaf := w1.next
      let w2 := w1.alloc .input (w.name out)
      match replaceLeafNodes env.o env.fuel out out leaf w2.deps with
      | none => (w2, some .recursionError)
      | some g => ({ w2 with deps := g }, none)
  -- explicit_output.py 88-166
  | .setItem out e check =>
    if w.kind out ≠ .explicitOut then (w, some .typeError)
    else
      let w1 := w.addDep env out e
      match check with
      | some err => (w1, some err)
      | none => ({ w1 with indexed := Function.update w1.indexed out true,
                           defined := Function.update w1.defined out true }, none)
  -- implicit_output.py 71-113
  | .defineResidual out e =>
    if w.kind out ≠ .implicitOut then (w, some .attributeError)
    else if e = out then (w, some .valueError)
    else if w.defined out then (w, some .valueError)
    else
      let leaf := w.next
      let w1 := w.alloc .input (w.name out)
      match replaceLeafNodes env.o env.fuel out e leaf w1.deps with
      | none => (w1, some .recursionError)
      | some g =>
        let r := ({ w1 with deps := g } : World).register env (w1.name e) e
        match r.2 with
        | some err => (r.1, some err)
        | none => ({ r.1 with defined := Function.update r.1.defined out true }, none)

/-- A history of calls; exceptions are caught by the user, who goes on. -/
def run (env : GEnv) (w : World) (ops : List Op) : World :=
  ops.foldl (fun w op => (step env w op).1) w

/-- The arguments of a call are existing objects other than the root (which is not accessible). -/
def Op.Valid (w : World) : Op → Prop
  | .combine args => ∀ a ∈ args, 0 < a ∧ a < w.next
  | .getItem x => 0 < x ∧ x < w.next
  | .registerOutput _ x => 0 < x ∧ x < w.next
  | .define out e => (0 < out ∧ out < w.next) ∧ 0 < e ∧ e < w.next
  | .setItem out e _ => (0 < out ∧ out < w.next) ∧ 0 < e ∧ e < w.next
  | .defineResidual out e => (0 < out ∧ out < w.next) ∧ 0 < e ∧ e < w.next
  | _ => True

/-- All calls of a history are valid when they are made. -/
def ValidFrom (env : GEnv) : World → List Op → Prop
  | _, [] => True
  | w, op :: ops => op.Valid w ∧ ValidFrom env (step env w op).1 ops

/-- group.py 80-115: components are constructed in the order of execution; stops with `ValueError` at
the first output that is not defined. Inputs, implicit outputs, the results of `__getitem__` and the root
have no `build` (line 90). -/
def buildAll (w : World) : List Ref → Except SetupError (List Ref)
  | [] => .ok []
  | u :: us =>
    if (w.kind u = .explicitOut ∨ w.kind u = .implicitOut) ∧ w.defined u = false then
      .error .valueError
    else
      (buildAll w us).map fun comps =>
        if w.kind u = .input ∨ w.kind u = .implicitOut ∨ w.kind u = .item ∨ w.kind u = .root then comps
        else u :: comps

/-- The whole of `Group.setup` after the user's part, group.py 41-115: the list of components added,
in order. -/
def setupGroup (env : SetupEnv) (w : World) : Except SetupError (List Ref) :=
  match sortExpressions env (fun u => w.kind u == .indep) 0 (GState.fresh w.deps) with
  | .error e => .error e
  | .ok (_, sorted) => buildAll w sorted.reverse

/-! ## Names -/

/-- `Variable.register_nodes` with its name-collision check, variable.py 244-269. The dictionary is
keyed by `_id` (`id` here), not by the name the user sees. -/
def registerNodesChecked (id : Ref → String) (g : Graph) :
    Nat → Ref → List Ref → Except SetupError (List Ref)
  | 0, _, _ => .error .recursionError
  | limit + 1, u, nodes =>
    (g u).foldlM (fun nodes v =>
      match nodes.find? (fun x => id x == id v) with
      | some x => if x = v then .ok nodes else .error .valueError
      | none => registerNodesChecked id g limit v (nodes ++ [v])) nodes

/-- group.py 92-108: name given to OpenMDAO's `add_subsystem`. `isGroup` tells which subsystems are
OpenMDAO groups. -/
def compName (isGroup : Ref → Bool) (w : World) (u : Ref) : String :=
  if w.kind u = .subsystem ∧ isGroup u then w.name u else "comp_" ++ w.name u

/-- OpenMDAO's `Group.add_subsystem` called for all components: `RuntimeError` for a name in use. -/
def omAddAll : List String → List String → Except SetupError (List String)
  | done, [] => .ok done
  | done, n :: ns => if n ∈ done then .error .runtimeError else omAddAll (done ++ [n]) ns

/-- `Group.setup` with names: the collision check, then `setupGroup`, then the components are added to
OpenMDAO's group. (In the code components are added one by one in the loop of `buildAll`; the error
for an undefined output is given priority here.) -/
def setupNamed (env : SetupEnv) (id : Ref → String) (isGroup : Ref → Bool) (w : World) :
    Except SetupError (List String) :=
  match registerNodesChecked id w.deps env.limit 0 [] with
  | .error e => .error e
  | .ok _ =>
    match setupGroup env w with
    | .error e => .error e
    | .ok comps => omAddAll [] (comps.map (compName isGroup w))

end OM
