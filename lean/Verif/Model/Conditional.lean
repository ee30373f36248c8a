import Verif.Model.Collect

/-!
# Model of `ConditionalComponent.setup` (`omtools/comps/conditional_component.py` 39-89)

The component that chooses between two models. Only the part up to the loop that adds the inputs is
modelled: the set it runs over is never made (`c77_never_set_up`). The options `condition`, `expr_true`
and `expr_false` hold objects of a group, described by the `World` and their shapes. `add_output` gets a
new component and does not raise.
-/

namespace OM

/-- The call `set(*args)`, with lists for the iterables: `TypeError` for more than one argument. -/
def pySetCall (o : SetOrder Ref) : List (List Ref) → Except PyErr (List Ref)
  | [] => .ok []
  | [xs] => .ok (o.list xs)
  | _ => .error .typeError

/-- Lines 39-76: the expressions that become inputs of the component. -/
def condInputs (w : World) (shape : Ref → List Nat) (o : SetOrder Ref) (limit : Nat) (c t f : Ref) :
    Except PyErr (List Ref) :=
  -- 41-42
  if w.kind c = .input then .error .typeError
  -- 43-47
  else if w.kind t = .input then .error .typeError
  -- 48-52
  else if w.kind f = .input then .error .typeError
  -- 54-57
  else if shape t ≠ shape f then .error .valueError
  else
    -- 66-70
    match collectInputs w c limit c [], collectInputs w t limit t [], collectInputs w f limit f [] with
    | some ic, some it, some if_ => pySetCall o [o.list ic, o.list it, o.list if_]    -- 77-78
    | _, _, _ => .error .recursionError

end OM
