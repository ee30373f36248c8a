import Verif.Model.Operands

/-!
# Model of the variables that an implicit component declares

`omtools/comps/implicit_component.py` 48-85.

Simplifications. The names are those of `Verif.Model.Collect`; here they are assumed to be accepted. `add_output` treats
shapes and values as `add_input` does.
-/

namespace OM

/-- A residual as the loop sees it: the expression, the name of its output, and the inputs it depends on in the order in
which the loop meets them. -/
structure ImplResidual where
  expr : ReadVar
  out : String
  inputs : List ReadVar

/-- `add_output(out_name, shape=res_expr.shape, val=res_expr.val)`, 60-66. -/
def ImplResidual.outDecl (r : ImplResidual) : InputDecl := ⟨r.out, some r.expr.shape, some r.expr.val⟩

/-- `add_input(in_expr.name, shape=in_expr.shape, val=in_expr.val)` for inputs with another name than the output,
69-75. -/
def ImplResidual.inDecls (r : ImplResidual) : List InputDecl :=
  (r.inputs.filter fun x => x.name ≠ r.out).map fun x => ⟨x.name, some x.shape, some x.val⟩

/-- The names of the variables with their initial values. -/
def declareAll (ds : List InputDecl) : Except PyErr (List (String × NdArr)) :=
  ds.mapM fun d => match d.initial with
    | .ok v => .ok (d.name, v)
    | .error e => .error e

/-- The outputs and the inputs of the component. -/
def implCompVars (rs : List ImplResidual) : Except PyErr (List (String × NdArr) × List (String × NdArr)) :=
  match declareAll (rs.map ImplResidual.outDecl), declareAll (rs.flatMap ImplResidual.inDecls) with
  | .ok outs, .ok ins => .ok (outs, ins)
  | .error e, _ => .error e
  | _, .error e => .error e

end OM
