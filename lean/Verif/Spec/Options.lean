import Verif.Model.Options

/-! # What options are to do -/

namespace OM.Spec

variable {V : Type}

/-- The arguments of a declaration are accepted. -/
def ArgsOk (d : Decl V) : Prop :=
  (∀ v, d.values = some v → ∃ vs, v = .vals vs) ∧ (∀ t, d.types = some t → t ≠ .bad) ∧
    (d.values = none ∨ d.types = none)

/-- The value satisfies the conditions declared. -/
def Meets (P : PyOps V) (d : Decl V) (name : String) (v : V) : Prop :=
  ((P.isNone v = true ∧ d.allowNone = true) ∨
    ((∀ vs, d.values = some (.vals vs) → ∃ w ∈ vs, P.eq v w = true) ∧
      (∀ t, d.types = some t → ∃ f, t = .inst f ∧ f v = true) ∧
      (∀ b, d.upper = some b → P.gt v b = .ok false) ∧
      ∀ b, d.lower = some b → P.lt v b = .ok false)) ∧
  ∀ f, d.check = some f → f name v = none

open Classical in
/-- The declaration in force after a history, latest call first. -/
noncomputable def declOf : List (OptOp V) → String → Option (Decl V)
  | [], _ => none
  | .declare m d :: h, n => if m = n ∧ ArgsOk d then some d else declOf h n
  | .undeclare m :: h, n => if m = n then none else declOf h n
  | _ :: h, n => declOf h n

/-- Setting an option is accepted: it is declared, options may be set, and the value meets the conditions. -/
def Accepts (P : PyOps V) (readOnly : Bool) (h : List (OptOp V)) (p : String × V) : Prop :=
  readOnly = false ∧ ∃ d, declOf h p.1 = some d ∧ Meets P d p.1 p.2

open Classical in
/-- The last value accepted after a history, latest call first, or the default. -/
noncomputable def valueOf (P : PyOps V) (readOnly : Bool) : List (OptOp V) → String → Option V
  | [], _ => none
  | .declare m d :: h, n => if m = n ∧ ArgsOk d then d.default else valueOf P readOnly h n
  | .undeclare m :: h, n => if m = n then none else valueOf P readOnly h n
  | .set m v :: h, n => if m = n ∧ Accepts P readOnly h (m, v) then some v else valueOf P readOnly h n
  | .update l :: h, n =>
    match ((l.takeWhile fun p => Accepts P readOnly h p).reverse.find? fun p => p.1 = n) with
    | some p => some p.2
    | none => valueOf P readOnly h n

/-- What reading an option gives after a history, latest call first. -/
noncomputable def optRead (P : PyOps V) (readOnly : Bool) (h : List (OptOp V)) (n : String) : Except PyErr V :=
  match declOf h n with
  | none => .error .keyError
  | some _ => match valueOf P readOnly h n with
    | none => .error .runtimeError
    | some v => .ok v

end OM.Spec
