import Verif.Model.Collect
import Verif.Model.Compile

/-!
# Programs of implicit components

`ImplicitComponent` (`omtools/comps/implicit_component.py`) has a group of its own. The user's `setup` makes calls on
that group, among them `create_implicit_output` and `define_residual`; afterwards the metaclass removes from the
outputs of the group everything that is not a residual, finds the variables of the component, and sets the group up as
the model of an internal problem.

Simplifications. As for programs of groups (`Verif.Model.Compile`). `define_residual_bracketed` makes the same calls
on the group as `define_residual` (implicit_output.py 115-161); the brackets are treated in `Verif.Model.Implicit`.
`is_residual` is set before the residual is registered; calls that raise are not followed.
-/

namespace OM

/-- The calls of the `setup` of an implicit component. -/
inductive ImplStmt
  | stmt (st : Stmt)
  /-- group.py 285-314 -/
  | createImplicit (name : String) (shape : List Nat)
  /-- implicit_output.py 71-113 -/
  | defineResidual (out e : Ref)

/-- The call as recorded by the group. -/
def ImplStmt.op : ImplStmt → Op
  | .stmt st => st.op
  | .createImplicit n _ => .createImplicit n
  | .defineResidual out e => .defineResidual out e

abbrev implOps (prog : List ImplStmt) : List Op := prog.map ImplStmt.op

/-- The residuals with the names of their outputs: `is_residual` and `res_out_map`, implicit_output.py 93 and 110. -/
def residualsFrom (genv : GEnv) : World → List ImplStmt → List (Ref × String)
  | _, [] => []
  | w, st :: prog =>
    (match st with
      | .defineResidual out e => if (step genv w (.defineResidual out e)).2 = none then [(e, w.name out)] else []
      | _ => []) ++ residualsFrom genv (step genv w st.op).1 prog

abbrev residualsOf (genv : GEnv) (prog : List ImplStmt) : List (Ref × String) :=
  residualsFrom genv (World.init genv) prog

/-- `_remove_nonresiduals`, implicit_component.py 18-33: only residuals stay outputs of the group. -/
def World.removeNonresiduals (w : World) (res : List (Ref × String)) : World :=
  { w with deps := Function.update w.deps 0 ((w.deps 0).filter fun x => x ∈ res.map Prod.fst) }

/-- The loop over the outputs of the group, implicit_component.py 48-85. -/
def implVars (w : World) (o : SetOrder Ref) (limit : Nat) (res : List (Ref × String)) :
    Except PyErr ImplInterface :=
  implInterface w o limit ((w.deps 0).filterMap fun x => res.find? fun r => r.1 == x)

/-- What one call adds. The new object of `define_residual` has the shape of the output (implicit_output.py 100). -/
noncomputable def Layout.implStep (genv : GEnv) (name : Ref → String) (w : World) (l : Layout) :
    ImplStmt → Except PyErr Layout
  | .stmt st => l.step genv name w st
  | .createImplicit _ s =>
    .ok { l with shape := Function.update l.shape w.next s, valShape := Function.update l.valShape w.next s }
  | .defineResidual out _ =>
    .ok { l with
      shape := Function.update l.shape w.next (l.shape out)
      valShape := Function.update l.valShape w.next (l.shape out) }

noncomputable def Layout.implRun (genv : GEnv) (name : Ref → String) :
    World → Layout → List ImplStmt → Except PyErr Layout
  | _, l, [] => .ok l
  | w, l, st :: prog =>
    match l.implStep genv name w st with
    | .error e => .error e
    | .ok l' => Layout.implRun genv name (OM.step genv w st.op).1 l' prog

/-- All components of the group. -/
noncomputable def compileImplicit (genv : GEnv) (prog : List ImplStmt) : Except PyErr Layout :=
  Layout.implRun genv (run genv (World.init genv) (implOps prog)).name (World.init genv) Layout.init prog

/-! ## The residuals as a function of everything else

What the program is meant to compute: the residuals, as functions of the inputs and of the implicit outputs. -/

/-- The program in which the implicit outputs are inputs and the residuals are outputs. (`define_residual` makes
another object for its output; declaring the input again makes one, too, and keeps the numbering of the objects.) -/
def explicitFrom (genv : GEnv) : World → (Ref → List Nat) → List ImplStmt → List Stmt
  | _, _, [] => []
  | w, shape, .stmt st :: prog => st :: explicitFrom genv (step genv w st.op).1 shape prog
  | w, shape, .createImplicit n s :: prog =>
    .declareInput n s :: explicitFrom genv (step genv w (.createImplicit n)).1 (Function.update shape w.next s) prog
  | w, shape, .defineResidual out e :: prog =>
    .declareInput (w.name out) (shape out) :: .registerOutput (w.name e) e ::
      explicitFrom genv (step genv w (.defineResidual out e)).1 shape prog

abbrev explicitOf (genv : GEnv) (prog : List ImplStmt) : List Stmt :=
  explicitFrom genv (World.init genv) (fun _ => []) prog

end OM
