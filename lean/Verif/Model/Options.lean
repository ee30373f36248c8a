import Verif.Model.Err
import Mathlib.Logic.Function.Basic

/-!
# Model of `OptionsDictionary` (`omtools/utils/options_dictionary.py`)

Simplifications. Values are elements of a type `V`; what Python does with them is given by `PyOps`. A value and the
flag `has_been_set` are one optional value. The printed forms (`__rst__`, `__str__`) are in Model/OptionsTable.lean; `children` is left out.
-/

namespace OM

/-- `value is None`, `a == b` (or the same object), `a > b`, `a < b`; comparing values of different types may raise. -/
structure PyOps (V : Type) where
  isNone : V → Bool
  eq : V → V → Bool
  gt : V → V → Except PyErr Bool
  lt : V → V → Except PyErr Bool

/-- The argument `values` of `declare`: a set, list or tuple, or something else. -/
inductive ValuesArg (V : Type)
  | vals (vs : List V)
  | bad

/-- The argument `types` of `declare`: a type or tuple of types (with what `isinstance` answers), a list or set,
with which `isinstance` raises `TypeError`, or something else. -/
inductive TypesArg (V : Type)
  | inst (isinst : V → Bool)
  | collection
  | bad

/-- The arguments of `declare`. -/
structure Decl (V : Type) where
  default : Option V
  values : Option (ValuesArg V)
  types : Option (TypesArg V)
  upper : Option V
  lower : Option V
  check : Option (String → V → Option PyErr)
  allowNone : Bool

structure OptState (V : Type) where
  dict : String → Option (Decl V × Option V)
  readOnly : Bool

def OptState.init (V : Type) (readOnly : Bool) : OptState V := ⟨fun _ => none, readOnly⟩

section
variable {V : Type}

/-- The exception of `if bound is not None: if cmp(value, bound): raise ValueError`, 234-243. -/
def boundErr (cmp : V → V → Except PyErr Bool) (v : V) : Option V → Option PyErr
  | none => none
  | some b => match cmp v b with
    | .error e => some e
    | .ok true => some .valueError
    | .ok false => none

/-- 219-232 -/
def kindErr (P : PyOps V) (d : Decl V) (v : V) : Option PyErr :=
  match d.values with
  | some (.vals vs) => if vs.any (P.eq v) then none else some .valueError
  | some .bad => some .typeError
  | none => match d.types with
    | none => none
    | some (.inst f) => if f v then none else some .typeError
    | some _ => some .typeError

/-- `_assert_valid`, 196-247: the exception raised, if any. -/
def assertValid (P : PyOps V) (d : Decl V) (name : String) (v : V) : Option PyErr :=
  let first : Option PyErr :=
    if P.isNone v && d.allowNone then none
    else match kindErr P d v with
      | some e => some e
      | none => match boundErr P.gt v d.upper with
        | some e => some e
        | none => boundErr P.lt v d.lower
  match first with
  | some e => some e
  | none => match d.check with
    | none => none
    | some f => f name v

/-- The calls that may change the options. The dictionary handed to `update` is given in its order. -/
inductive OptOp (V : Type)
  | declare (name : String) (d : Decl V)
  | undeclare (name : String)
  | set (name : String) (v : V)
  | update (l : List (String × V))

/-- 280-289 -/
def declareErr (d : Decl V) : Option PyErr :=
  match d.values with
  | some .bad => some .typeError
  | vs => match d.types with
    | some .bad => some .typeError
    | none => none
    | some _ => if vs.isSome then some .runtimeError else none

/-- `__setitem__`, 361-385 -/
def OptState.setItem (P : PyOps V) (s : OptState V) (name : String) (v : V) : OptState V × Option PyErr :=
  match s.dict name with
  | none => (s, some .keyError)
  | some (d, _) =>
    if s.readOnly then (s, some .keyError)
    else match assertValid P d name v with
      | some e => (s, some e)
      | none => ({ s with dict := Function.update s.dict name (some (d, some v)) }, none)

/-- `update`, 322-332 -/
def OptState.update (P : PyOps V) : OptState V → List (String × V) → OptState V × Option PyErr
  | s, [] => (s, none)
  | s, p :: l => match s.setItem P p.1 p.2 with
    | (s1, some e) => (s1, some e)
    | (s1, none) => s1.update P l

def OptState.step (P : PyOps V) (s : OptState V) : OptOp V → OptState V × Option PyErr
  -- 249-307
  | .declare name d =>
    match declareErr d with
    | some e => (s, some e)
    | none =>
      let s1 := { s with dict := Function.update s.dict name (some (d, d.default)) }
      match d.default with
      | none => (s1, none)
      | some v => (s1, assertValid P d name v)
  -- 309-320
  | .undeclare name => ({ s with dict := Function.update s.dict name none }, none)
  | .set name v => s.setItem P name v
  | .update l => s.update P l

/-- A history of calls; exceptions are caught by the user, who goes on. -/
def OptState.run (P : PyOps V) (s : OptState V) (ops : List (OptOp V)) : OptState V :=
  ops.foldl (fun s op => (s.step P op).1) s

/-- `__getitem__`, 387-409 -/
def OptState.get (s : OptState V) (name : String) : Except PyErr V :=
  match s.dict name with
  | none => .error .keyError
  | some (_, none) => .error .runtimeError
  | some (_, some v) => .ok v

end

end OM
