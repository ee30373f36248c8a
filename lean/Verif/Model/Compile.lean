import Verif.Model.Arith
import Verif.Model.Unary
import Verif.Model.Axes
import Verif.Model.Cross
import Verif.Model.Rotmat
import Verif.Model.IfElse
import Verif.Model.Extremum
import Verif.Model.Einsum
import Verif.Model.Wiring
import Verif.Model.Indexing

/-!
# From programs to components

The component that OpenMDAO gets for a call of an operator or function of the package, put together from the
models of the functions and of the components, and the components of a whole program. Operands are objects of
the group; a component reads them under the names they have when the group is set up (`in_name=expr.name`
inside a `lambda`, see `Verif.Model.Wiring`).

Simplifications. Errors that are raised when a component is set up are raised by the call. Operands of a sum or
average have equal shapes and an output is defined by an expression of its own shape: the package does not
check this (C60), but OpenMDAO refuses to connect variables of different shapes (it accepts shapes that differ by
axes of length one, which is left out). Independent variables are given from outside. A program reads each part
`x[key]` of a variable once: a second `x[key]` returns the same object (C19), which the program uses instead.
-/

namespace OM

/-- A component: inputs with sizes, shape of the output, `compute`, `compute_partials`. -/
structure Built where
  ins : List (String × Nat)
  shape : List Nat
  compute : (String → Nat → ℝ) → Except PyErr (Nat → ℝ)
  partials : (String → Nat → ℝ) → Except PyErr (String → Coo)

/-- What is computed, zero if an exception is raised. -/
noncomputable def Built.total (b : Built) (inp : String → Nat → ℝ) : Nat → ℝ :=
  match b.compute inp with
  | .error _ => fun _ => 0
  | .ok r => r

/-- The exception raised by `compute`. -/
def Built.raised (b : Built) (inp : String → Nat → ℝ) : Option PyErr :=
  match b.compute inp with
  | .error e => some e
  | .ok _ => none

/-- An operand of an arithmetic operator. -/
inductive Arg
  | ref (u : Ref)
  | const (c : Const)

/-- Calls of operators and functions. -/
inductive Term
  | add (a b : Arg)
  | sub (a b : Arg)
  | mul (a b : Arg)
  | div (a b : Arg)
  | pow (a : Ref) (p : ℝ)
  | neg (a : Ref)
  | unary (f : Unary) (a : Ref)
  | sum (as : List Ref) (axes : Option (List Int))
  | average (as : List Ref) (axes : Option (List Int))
  | matmat (a b : Ref)
  | matvec (a b : Ref)
  | outer (a b : Ref)
  | dot (a b : Ref) (axis : Option Int)
  | inner (a b : Ref) (axes : Option (List Int × List Int))
  | cross (a b : Ref) (axis : Int)
  | rotmat (a : Ref) (axis : String)
  | transpose (a : Ref)
  /-- `reorder_axes(a, 'lhs->rhs')` -/
  | reorder (a : Ref) (lhs rhs : List Char)
  | reshape (a : Ref) (shape : List Nat)
  /-- `expand(a, shape)` or `expand(a, shape, 'lhs->rhs')` -/
  | expand (a : Ref) (shape : List Nat) (indices : Option (List Char × List Char))
  /-- `max` or `min` (`lower`) -/
  | extremum (lower : Bool) (as : List Ref) (axis : Option Int) (rho : ℝ)
  | pnorm (a : Ref) (p : Int) (axes : Option (List Int))
  /-- `einsum(as, subscripts='ab,bc->ac', partial_format=…)` -/
  | einsum (as : List Ref) (labels : List (List Char)) (out : List Char) (sparse : Bool)

def Arg.refs : Arg → List Ref
  | .ref u => [u]
  | .const _ => []

/-- The objects for which `add_dependency_node` is called, in order. -/
def Term.refs : Term → List Ref
  | .add a b | .sub a b | .mul a b | .div a b => a.refs ++ b.refs
  | .pow a _ | .neg a | .unary _ a | .rotmat a _ | .transpose a | .reorder a _ _ | .reshape a _
  | .expand a _ _ | .pnorm a _ _ => [a]
  | .sum as _ | .average as _ | .extremum _ as _ _ | .einsum as _ _ _ => as
  | .matmat a b | .matvec a b | .outer a b | .dot a b _ | .inner a b _ | .cross a b _ => [a, b]

section
variable (name : Ref → String) (shape : Ref → List Nat)

def Arg.operand : Arg → Operand
  | .ref u => .var (name u) (shape u)
  | .const c => .const c

/-- `LinearCombinationComp` for a sum or difference. -/
noncomputable def builtLin : Except PyErr (Option LinOpts) → Except PyErr Built
  | .error e => .error e
  | .ok none => .error .typeError
  | .ok (some o) =>
    match o.setup with
    | .error e => .error e
    | .ok c => .ok ⟨c.ins, o.shape, fun inp => .ok (c.compute inp), fun _ => .ok c.partials⟩

/-- `PowerCombinationComp` for a product, quotient or power. -/
noncomputable def builtPow : Except PyErr (Option PowOpts) → Except PyErr Built
  | .error e => .error e
  | .ok none => .error .typeError
  | .ok (some o) =>
    match o.setup with
    | .error e => .error e
    | .ok c => .ok ⟨c.ins, o.shape, c.compute, fun inp => .ok (c.computePartials inp).2⟩

/-- The component that `sum` or `average` set up, with the operands of equal shape. -/
def setupRed (as : List Ref) (axes : Option (List Int)) : Except PyErr Red :=
  if ∃ a ∈ as, ∃ b ∈ as, shape a ≠ shape b then .error .valueError
  else
    match stdRed (as.map fun u => (name u, shape u)) axes with
    | .error e => .error e
    | .ok c =>
      match c.setup with
      | .error e => .error e
      | .ok () => .ok c

/-- A component after `setup`. -/
def builtOf {β : Type} (c : Except PyErr β) (setup : β → Except PyErr Unit) (built : β → Built) :
    Except PyErr Built :=
  match c with
  | .error e => .error e
  | .ok c =>
    match setup c with
    | .error e => .error e
    | .ok () => .ok (built c)

noncomputable def builtVec (c : VecInner) : Built :=
  ⟨c.ins, [1], fun inp => .ok (c.compute inp), fun inp => .ok (c.partials inp)⟩

/-- A component with state: it is run before its partials are computed, on the same inputs. -/
def builtStateful {σ : Type} (c : Stateful σ) (ins : List (String × Nat)) (outShape : List Nat) : Built :=
  ⟨ins, outShape, fun inp => .ok (c.compute c.init inp).1, fun inp => c.partials (c.after [.compute inp]) inp⟩

/-- The string `lhs->rhs`. -/
def withArrow (lhs rhs : List Char) : List Char := lhs ++ '-' :: '>' :: rhs

/-- The component built for a call. -/
noncomputable def Term.build : Term → Except PyErr Built
  | .add a b => builtLin (pyOperator buildAdd (a.operand name shape) (b.operand name shape))
  | .sub a b => builtLin (pyOperator buildSub (a.operand name shape) (b.operand name shape))
  | .mul a b => builtPow (pyOperator buildMul (a.operand name shape) (b.operand name shape))
  | .div a b => builtPow (pyOperator buildDiv (a.operand name shape) (b.operand name shape))
  | .pow a p => builtPow (.ok (some (buildPow (name a) (shape a) (.num p))))
  | .neg a => builtPow (buildNeg (name a) (shape a))
  | .unary f a => .ok ⟨[(name a, prodShape (shape a))], shape a, fun inp => .ok (f.compute (name a) inp),
      fun inp => (f.partials (name a) (shape a) inp).map fun p _ => p⟩
  | .sum as axes =>
    match setupRed name shape as axes with
    | .error e => .error e
    | .ok c => .ok ⟨c.ins, c.outShape, fun inp => .ok (c.sum inp), fun _ => .ok c.sumPartials⟩
  | .average as axes =>
    match setupRed name shape as axes with
    | .error e => .error e
    | .ok c =>
      match c.averageWeight with
      | .error e => .error e
      | .ok w => .ok ⟨c.ins, c.outShape, fun inp => .ok (c.average inp), fun _ => .ok (c.averagePartials w)⟩
  | .matmat a b => builtOf (stdMatmat (name a) (shape a) (name b) (shape b)) MatMat.setup fun c =>
      ⟨c.ins, c.outShape, fun inp => .ok (c.compute inp), fun inp => .ok (c.partials inp)⟩
  | .matvec a b => builtOf (stdMatvec (name a) (shape a) (name b) (shape b)) MatVec.setup fun c =>
      ⟨c.ins, c.outShape, fun inp => .ok (c.compute inp), fun inp => .ok (c.partials inp)⟩
  | .outer a b => builtOf (stdOuter (name a) (shape a) (name b) (shape b)) Outer.setup fun c =>
      ⟨c.ins, c.outShape, fun inp => .ok (c.compute inp), fun inp => .ok (c.partials inp)⟩
  | .dot a b axis => builtOf (stdDot (name a) (shape a) (name b) (shape b) axis)
      (Sum.elim VecInner.setup TensorDot.setup) (Sum.elim builtVec fun c =>
        ⟨c.ins, c.outShape, fun inp => .ok (c.compute inp), fun inp => .ok (c.partials inp)⟩)
  | .inner a b axes => builtOf (stdInner (name a) (shape a) (name b) (shape b) axes)
      (Sum.elim VecInner.setup TensorInner.setup) (Sum.elim builtVec fun c =>
        ⟨c.ins, c.outShape, fun inp => .ok (c.compute inp), fun inp => .ok (c.partials inp)⟩)
  | .cross a b axis => builtOf (stdCross (name a) (shape a) (name b) (shape b) axis) Cross.setup fun c =>
      ⟨c.ins, c.shape, fun inp => .ok (c.compute inp), fun inp => .ok (c.partials inp)⟩
  | .rotmat a axis => builtOf (stdRotmat (name a) (shape a) axis) (fun _ => .ok ()) fun c =>
      ⟨c.ins, c.outShape, fun inp => .ok (c.compute inp), fun inp => .ok (c.partials inp)⟩
  | .transpose a => builtOf (.ok (stdTranspose (name a) (shape a))) (fun _ => .ok ()) fun c =>
      ⟨c.ins, c.outShape, fun inp => .ok (c.compute inp), fun _ => .ok c.partials⟩
  | .reorder a lhs rhs => builtOf (stdReorder (name a) (shape a) (withArrow lhs rhs)) (fun _ => .ok ()) fun c =>
      ⟨c.ins, c.outShape, fun inp => .ok (c.compute inp), fun _ => .ok c.partials⟩
  | .reshape a s => builtOf (stdReshape (name a) (shape a) s) (fun _ => .ok ()) fun c =>
      ⟨c.ins, c.newShape, fun inp => .ok (c.compute inp), fun _ => .ok c.partials⟩
  | .expand a s indices =>
    builtOf (stdExpand (name a) (shape a) s (indices.map fun p => withArrow p.1 p.2)) (fun _ => .ok ()) fun c =>
      ⟨c.ins, c.shape, fun inp => .ok (c.compute inp), fun _ => .ok c.partials⟩
  | .extremum lower as axis rho =>
    builtOf (stdExtremum lower (as.map fun u => (name u, shape u)) axis rho)
      (fun
        | .elem c => c.setup
        | .ks _ => .ok ())
      fun
        | .elem c => ⟨c.ins, shape (as.headD 0), fun inp => .ok (c.compute inp), fun inp => .ok (c.partials inp)⟩
        | .ks c => builtStateful c.comp [(c.name, c.size)] c.outShape
  | .pnorm a p axes => builtOf (stdPnorm (name a) (shape a) p axes) (fun _ => .ok ()) fun c =>
      builtStateful c.comp [(c.name, c.size)] c.outShape
  | .einsum as labels out sparse =>
    builtOf (stdEinsum (as.map fun u => (name u, shape u)) (withArrow ([','].intercalate labels) out))
      (fun _ => .ok ()) fun c =>
        ⟨c.ins, c.shape, fun inp => .ok (c.compute inp), if sparse then c.sparsePartials else c.densePartials⟩

/-- The component of an output `out` defined by `e`. -/
noncomputable def builtPass (out e : Ref) : Built :=
  let c : PassThrough := ⟨name out, shape out, name e, shape e⟩
  ⟨c.ins, c.outShape, fun inp => .ok (c.compute inp), fun _ => .ok c.partials⟩

/-- `IndexedPassThroughComp` for an output with the assignments `as`. Elements that are not assigned keep the value 1.0
that OpenMDAO gives an output without initial value (indexed_pass_through_comp.py 22-25). -/
def builtIndexed (shape : List Nat) (as : List Assign) : Built :=
  let tgt := (assigns (OVar.new shape) as).tgt
  ⟨indexedIns tgt, shape, fun inp => indexedPassThrough tgt inp fun _ => 1, fun _ => .ok (indexedPartials tgt)⟩

/-- `DecomposeComp` for one of its outputs: `x` has shape `whole`, the output has shape `part`. -/
def builtItem (x : String) (whole part src : List Nat) : Built :=
  ⟨[(x, prodShape whole)], part, fun inp => .ok fun i => (decomposeCompute src (inp x)).getD i 0,
    fun _ => .ok fun _ => decomposePartials src⟩

end

/-! ## Running components that may raise -/

/-- A component that may raise an exception when it is run. -/
structure CompE (V : String → Type) where
  reads : List String
  writes : List String
  f : ((i : Fin reads.length) → V reads[i]) → Except PyErr ((n : String) → V n)

def CompE.run {V : String → Type} (c : CompE V) (s : Store V) : Except PyErr (Store V) :=
  match c.f fun i => s c.reads[i] with
  | .error e => .error e
  | .ok r => .ok fun n => if n ∈ c.writes then r n else s n

/-- The components are run in order, up to the first exception. -/
def runAllE {V : String → Type} : List (CompE V) → Store V → Except PyErr (Store V)
  | [], s => .ok s
  | c :: comps, s =>
    match c.run s with
    | .error e => .error e
    | .ok s' => runAllE comps s'

/-- Arrays, flattened: `size n` is the number of entries of the variable named `n`. -/
abbrev FlatArr (size : String → Nat) (n : String) : Type := Fin (size n) → ℝ

/-- The input arrays by name. -/
def lookup {size : String → Nat} {reads : List String}
    (x : (i : Fin reads.length) → FlatArr size reads[i]) (n : String) (j : Nat) : ℝ :=
  match (List.finRange reads.length).find? (fun k => reads[k] == n) with
  | none => 0
  | some k => if h : j < size reads[k] then x k ⟨j, h⟩ else 0

/-- The inputs of a component with these outputs. -/
def insOf : List (String × Built) → List (String × Nat)
  | [] => []
  | p :: _ => p.2.ins

/-- The component with these outputs, which all have the same inputs. -/
noncomputable def outsCompE (size : String → Nat) (outs : List (String × Built)) : CompE (FlatArr size) :=
  ⟨(insOf outs).map Prod.fst, outs.map Prod.fst, fun x =>
    match outs.findSome? fun p => p.2.raised (lookup x) with
    | some e => .error e
    | none => .ok fun n i =>
      match outs.find? fun p => p.1 == n with
      | none => 0
      | some p => p.2.total (lookup x) i⟩

/-! ## Programs -/

/-- The calls of a program. -/
inductive Stmt
  | declareInput (name : String) (shape : List Nat)
  | createIndep (name : String) (shape : List Nat)
  | createOutput (name : String) (shape : List Nat)
  | expr (c : Term)
  | registerOutput (name : String) (u : Ref)
  | define (out e : Ref)
  /-- `x[key]` -/
  | getItem (x : Ref) (key : Key)
  /-- `out[key] = e` -/
  | setItem (out : Ref) (key : Key) (e : Ref)
  /-- what the subsystem computes is not part of the program, see `Verif.Model.Nested` -/
  | addSubsystem (name : String)

/-- The call as recorded by the group. -/
def Stmt.op : Stmt → Op
  | .declareInput n _ => .declareInput n
  | .createIndep n _ => .createIndep n
  | .createOutput n _ => .createOutput n
  | .expr c => .combine c.refs
  | .registerOutput n u => .registerOutput n u
  | .define out e => .define out e
  | .getItem x _ => .getItem x
  | .setItem out _ e => .setItem out e none
  | .addSubsystem n => .addSubsystem n

abbrev ops (prog : List Stmt) : List Op := prog.map Stmt.op

/-- Shapes of the objects and of their initial values `val`, the components of expressions, the keys used on a
variable, the elements read by an object `x[key]`, and the assignments to parts of an output. -/
structure Layout where
  shape : Ref → List Nat
  valShape : Ref → List Nat
  built : Ref → Option Built
  keys : Ref → List Key
  src : Ref → List Nat
  tgt : Ref → List Assign

def Layout.init : Layout := ⟨fun _ => [], fun _ => [], fun _ => none, fun _ => [], fun _ => [], fun _ => []⟩

/-- What one call adds; `name` are the names that the objects have when the group is set up. The initial value of an
expression is `np.array([1])` (variable.py 130), whatever its shape. A definition by an expression of another shape, which
the code accepts (C60), is outside of this model: the error does not stand for one of the code. -/
noncomputable def Layout.step (genv : GEnv) (name : Ref → String) (w : World) (l : Layout) :
    Stmt → Except PyErr Layout
  | .declareInput _ s | .createIndep _ s | .createOutput _ s =>
    .ok { l with shape := Function.update l.shape w.next s, valShape := Function.update l.valShape w.next s }
  | .expr c =>
    match c.build name l.shape with
    | .error e => .error e
    | .ok b => .ok { l with
        shape := Function.update l.shape w.next b.shape
        valShape := Function.update l.valShape w.next [1]
        built := Function.update l.built w.next (some b) }
  | .registerOutput _ _ | .addSubsystem _ => .ok l
  | .define out e =>
    if (OM.step genv w (.define out e)).2 = none ∧ l.shape out ≠ l.shape e then .error .valueError else .ok l
  | .getItem x key =>
    match (OM.getItem (getItems (IVar.new (l.shape x) (l.valShape x)) (l.keys x)) key).2 with
    | .error e => .error e
    | .ok ex => .ok { l with
        shape := Function.update l.shape ((OM.step genv w (.getItem x)).1.next - 1) ex.shape
        valShape := Function.update l.valShape ((OM.step genv w (.getItem x)).1.next - 1) ex.shape
        keys := Function.update l.keys x (l.keys x ++ [key])
        src := Function.update l.src ((OM.step genv w (.getItem x)).1.next - 1) ex.src }
  | .setItem out key e =>
    if w.kind out ≠ .explicitOut then .error .typeError
    else
      match (setItemIdx (assigns (OVar.new (l.shape out)) (l.tgt out)) key (w.name e) (l.shape e)).2 with
      | some err => .error err
      | none => .ok { l with tgt := Function.update l.tgt out (l.tgt out ++ [(key, w.name e, l.shape e)]) }

noncomputable def Layout.run (genv : GEnv) (name : Ref → String) :
    World → Layout → List Stmt → Except PyErr Layout
  | _, l, [] => .ok l
  | w, l, st :: prog =>
    match l.step genv name w st with
    | .error e => .error e
    | .ok l' => Layout.run genv name (OM.step genv w st.op).1 l' prog

/-- All components of a program. -/
noncomputable def compileProgram (genv : GEnv) (prog : List Stmt) : Except PyErr Layout :=
  Layout.run genv (run genv (World.init genv) (ops prog)).name (World.init genv) Layout.init prog

/-- The outputs of the component that `setup` builds for object `u`. -/
noncomputable def Layout.outsOf (l : Layout) (w : World) (k : Wires) (u : Ref) : List (String × Built) :=
  match w.kind u with
  | .expr => (l.built u).toList.map fun b => (w.name u, b)
  | .explicitOut =>
    if w.indexed u then [(w.name u, builtIndexed (l.shape u) (l.tgt u))]
    else [(w.name u, builtPass w.name l.shape u (k.body u))]
  | .decomp => (k.parts u).map fun o =>
      (w.name o, builtItem (w.name (k.whole u)) (l.shape (k.whole u)) (l.shape o) (l.src o))
  | _ => []

/-- The component of object `u`. -/
noncomputable def Layout.compE (l : Layout) (w : World) (k : Wires) (size : String → Nat) (u : Ref) :
    CompE (FlatArr size) := outsCompE size (l.outsOf w k u)

end OM
