import Verif.Model.Group

/-!
# Model of `collect_input_exprs` and of the interface of an implicit component

`omtools/utils/collect_input_exprs.py`, `omtools/comps/implicit_component.py` 39-100.

Simplifications. Only names are kept of the variables of the component; the calls that make the names responses and
design variables of the internal problem are left out. `add_input` and `add_output` raise `ValueError` for a
name that the component has already.
-/

namespace OM

/-- `collect_input_exprs(inputs, root, expr)`, collect_input_exprs.py 16-22. The first argument is the number of nested
calls Python still allows; `none` is `RecursionError`. -/
def collectInputs (w : World) (root : Ref) : Nat → Ref → List Ref → Option (List Ref)
  | 0, _, _ => none
  | limit + 1, expr, inputs =>
    (w.deps expr).foldlM (fun inputs dep =>
      if w.name dep ≠ w.name root then
        collectInputs w root limit dep
          (if w.kind dep = .input ∧ (w.deps dep).length = 0 then inputs ++ [dep] else inputs)
      else some inputs) inputs

/-- The names of the outputs and inputs of the component so far, and the partials declared, as pairs of output and
input. -/
structure ImplInterface where
  outs : List String
  ins : List String
  wrt : List (String × String)

/-- `add_input` and `declare_partials` for one input, 70-79. -/
def ImplInterface.addInput (c : ImplInterface) (out name : String) : Except PyErr ImplInterface :=
  if name = out then .ok c
  else if name ∈ c.outs ++ c.ins then .error .valueError
  else .ok { c with ins := c.ins ++ [name], wrt := c.wrt ++ [(out, name)] }

/-- The body of the loop for one residual, 51-85; `out` is the name of its output. -/
def ImplInterface.addResidual (w : World) (o : SetOrder Ref) (limit : Nat) (c : ImplInterface) (r : Ref × String) :
    Except PyErr ImplInterface :=
  match collectInputs w r.1 limit r.1 [] with
  | none => .error .recursionError
  | some inputs =>
    if r.2 ∈ c.outs ++ c.ins then .error .valueError
    else
      match (o.list inputs).foldlM (fun c x => c.addInput r.2 (w.name x)) { c with outs := c.outs ++ [r.2] } with
      | .error e => .error e
      | .ok c => .ok { c with wrt := c.wrt ++ [(r.2, r.2)] }

/-- The loop over the residuals, 48-85, in the order in which it meets them. -/
def implInterface (w : World) (o : SetOrder Ref) (limit : Nat) (residuals : List (Ref × String)) :
    Except PyErr ImplInterface :=
  residuals.foldlM (ImplInterface.addResidual w o limit) ⟨[], [], []⟩

end OM
