import Verif.Model.Group
import Verif.Model.Exec

/-!
# Which names the generated components read and write

Every expression stores a function `build` that constructs its component; the names of the variables
read and written are taken from the objects when `build` is called, that is during `Group.setup` after all
calls of the user (`in_name=expr.name`, `out_name=self.name` inside a `lambda`). The exception is indexed
assignment, which stores the name its operand has at the time of the assignment (explicit_output.py
149).
-/

namespace OM

/-- What the objects remember for their `build`. -/
structure Wires where
  /-- expressions: the operands, in order (variable.py 403-718, `std/*.py`) -/
  args : Ref → List Ref
  /-- the hidden object of `x[...]`: the whole `x` (variable.py 206-210) -/
  whole : Ref → Ref
  /-- the hidden object of `x[...]`: the expressions returned, in order (`src_indices`, line 201) -/
  parts : Ref → List Ref
  /-- outputs: the expression given to `define` (explicit_output.py 81-84) -/
  body : Ref → Ref
  /-- outputs: the keys of `_tgt_indices`, in order (explicit_output.py 149) -/
  keys : Ref → List String

def Wires.init : Wires :=
  { args := fun _ => [], whole := fun _ => 0, parts := fun _ => [], body := fun _ => 0,
    keys := fun _ => [] }

/-- What one call adds. An assignment `out[key] = e` that is refused because of overlapping indices also
leaves its key (see C17); here only accepted assignments are followed. -/
def Wires.step (env : GEnv) (w : World) (k : Wires) : Op → Wires
  | .combine args => { k with args := Function.update k.args w.next args }
  | .getItem x =>
    let d := (w.decomp x).getD w.next
    { k with
      whole := Function.update k.whole d x
      parts := Function.update k.parts d (k.parts d ++ [(OM.step env w (.getItem x)).1.next - 1]) }
  | .define out e =>
    if (OM.step env w (.define out e)).2 = none then { k with body := Function.update k.body out e } else k
  | .setItem out e none =>
    if w.kind out = .explicitOut then
      { k with keys := Function.update k.keys out (k.keys out ++ [w.name e]) }
    else k
  | _ => k

/-- The calls of a history, with what the objects remember. -/
def Wires.run (env : GEnv) : World → Wires → List Op → Wires
  | _, k, [] => k
  | w, k, op :: ops => Wires.run env (OM.step env w op).1 (k.step env w op) ops

/-- What the objects compute: given by the user and by the components (C17, C19, C26-C47). -/
structure Meaning (α : Type) where
  /-- the value of an independent variable -/
  const : Ref → α
  /-- the operation of an expression, applied to the values of its operands -/
  op : Ref → List α → α
  /-- the part of `x` that the expression `x[key]` stands for -/
  part : Ref → α → α
  /-- the output made by indexed assignments from the values assigned, in order -/
  assemble : Ref → List α → α
  /-- names of promoted inputs of a subsystem -/
  subReads : Ref → List String
  /-- names of promoted outputs of a subsystem -/
  subWrites : Ref → List String
  /-- what a subsystem computes -/
  sub : Ref → List α → String → α

/-- The component of object `u` in the final state (group.py 90-91). Independent variables and outputs
cannot be renamed (C24), so the name captured in their `build` is their name. -/
def compOf {α : Type} (m : Meaning α) (w : World) (k : Wires) (u : Ref) : Comp fun _ => α :=
  match w.kind u with
  -- indep.py 37-41
  | .indep => ⟨[], [w.name u], fun _ _ => m.const u⟩
  | .expr => ⟨(k.args u).map w.name, [w.name u], fun x _ => m.op u (List.ofFn x)⟩
  -- decompose_comp.py 13-49
  | .decomp => ⟨[w.name (k.whole u)], (k.parts u).map w.name, fun x n =>
      match (k.parts u).find? (fun o => w.name o == n) with
      | some o => m.part o (x 0)
      | none => x 0⟩
  | .explicitOut =>
    -- indexed_pass_through_comp.py 14-51
    if w.indexed u then ⟨k.keys u, [w.name u], fun x _ => m.assemble u (List.ofFn x)⟩
    -- pass_through_comp.py 11-34
    else ⟨[w.name (k.body u)], [w.name u], fun x _ => x 0⟩
  -- subsystem.py 25
  | .subsystem => ⟨m.subReads u, m.subWrites u, fun x n => m.sub u (List.ofFn x) n⟩
  | _ => ⟨[], [], fun _ _ => m.const u⟩

end OM
