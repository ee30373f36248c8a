import Verif.Model.Arith

/-!
# Model of `LinearPowerCombinationComp`

`omtools/comps/linearpowercombination.py`: the sum of a constant and of products `coeff * x ** p * y ** q * …`. The
component is not used by the rest of the package; it can be added as a subsystem.

Simplifications. A float is a real number or not finite (`none`: inf and nan, which sums and products never turn
into numbers again); overflow is left out. A dictionary is an association list without repeated keys. All arrays have the
size of the output.
-/

namespace OM
open Classical

/-- NumPy's `x ** p` for floats: a division by zero gives inf, a root of a negative number nan. -/
noncomputable def npPow (x p : ℝ) : Option ℝ :=
  if 0 < x then some (x ^ p)
  else if x = 0 then (if p < 0 then none else some (x ^ p))
  else if ∃ n : ℤ, p = n then some (x ^ p) else none

/-- The product of floats. -/
noncomputable def fMul (a b : Option ℝ) : Option ℝ := a.bind fun x => b.map fun y => x * y

/-- The sum of floats. -/
noncomputable def fAdd (a b : Option ℝ) : Option ℝ := a.bind fun x => b.map fun y => x + y

/-- An element of the option `coeffs`: a number or an array, which is changed in place. -/
inductive Coef
  | num (c : ℝ)
  | arr (c : Nat → Option ℝ)

def Coef.at : Coef → Nat → Option ℝ
  | .num c, _ => some c
  | .arr c, i => c i

/-- Values for the option `in_names`, process_options.py 3. -/
inductive Names
  | none
  | str (s : String)
  | list (l : List String)

/-- `for in_name in in_names`, line 66: a string is a sequence of characters. -/
def Names.iter : Names → Except PyErr (List String)
  | .none => .error .typeError
  | .str s => .ok (s.toList.map Char.toString)
  | .list l => .ok l

structure LinPowOpts where
  shape : List Nat
  /-- `terms_list`: coefficients with a dictionary of powers -/
  terms : List (ℝ × List (String × ℝ))
  inNames : Names
  /-- number of rows and columns, and entries -/
  powers : Nat × Nat × (Nat → Nat → ℝ)
  coeffs : List Coef
  constant : Const

/-- A component after `setup`: the options it uses later. -/
structure LinPow where
  size : Nat
  names : List String
  powers : Nat × Nat × (Nat → Nat → ℝ)
  coeffs : List Coef
  constant : Const

/-- `in_name_to_ivar.update(power_dict)` for all terms, lines 37-39: keys keep the position of their first insertion. -/
def ivars (terms : List (ℝ × List (String × ℝ))) : List String :=
  terms.foldl (fun ks t => t.2.foldl (fun ks p => if p.1 ∈ ks then ks else ks ++ [p.1]) ks) []

/-- `powers` of lines 46-51: zero where a term has no such variable. -/
noncomputable def termPowers (terms : List (ℝ × List (String × ℝ))) (names : List String) (t v : Nat) : ℝ :=
  match terms[t]?, names[v]? with
  | some term, some name => ((term.2.find? fun p => p.1 == name).map Prod.snd).getD 0
  | _, _ => 0

/-- `LinearPowerCombinationComp.setup`, 32-76; `add_input` of OpenMDAO raises `ValueError` for a name added before. -/
noncomputable def LinPowOpts.setup (o : LinPowOpts) : Except PyErr LinPow :=
  let o' : LinPowOpts := if o.terms = [] then o else
    { o with
      inNames := .list (ivars o.terms)
      powers := (o.terms.length, (ivars o.terms).length, termPowers o.terms (ivars o.terms))
      coeffs := o.terms.map fun t => .num t.1 }
  match o'.inNames.iter with
  | .error e => .error e
  | .ok names =>
    if names.Nodup then .ok ⟨prodShape o'.shape, names, o'.powers, o'.coeffs, o'.constant⟩ else .error .valueError

/-- The index errors of `coeffs[iterm]` and `powers[iterm, ivar]`. -/
def LinPow.indexable (c : LinPow) : Prop :=
  c.powers.1 ≤ c.coeffs.length ∧ (c.powers.1 = 0 ∨ c.names.length ≤ c.powers.2.1)

/-- The loop over the variables of `compute`, 88-90, for row `t` at position `i`. -/
noncomputable def LinPow.term (c : LinPow) (inp : String → Nat → ℝ) (t i : Nat) : Option ℝ :=
  c.names.zipIdx.foldl (fun out p => fMul out (npPow (inp p.1 i) (c.powers.2.2 t p.2)))
    ((c.coeffs.getD t (.num 0)).at i)

/-- `LinearPowerCombinationComp.compute`, 78-92. -/
noncomputable def LinPow.compute (c : LinPow) (inp : String → Nat → ℝ) : Except PyErr (Nat → Option ℝ) :=
  if c.indexable then
    .ok fun i => (List.range c.powers.1).foldl (fun out t => fAdd out (c.term inp t i)) (some (c.constant.at i))
  else .error .indexError

/-- Lines 104-116: the loop over the variables for row `t` and the derivative by `name`. -/
noncomputable def LinPow.dterm (c : LinPow) (inp : String → Nat → ℝ) (name : String) (t i : Nat) : Option ℝ :=
  c.names.zipIdx.foldl (fun out p => fMul out (fMul (some (if name = p.1 then c.powers.2.2 t p.2 else 1))
      (npPow (inp p.1 i) (if name = p.1 then c.powers.2.2 t p.2 - 1 else c.powers.2.2 t p.2))))
    ((c.coeffs.getD t (.num 0)).at i)

/-- Lines 101-118: the derivative by `name`. -/
noncomputable def LinPow.deriv (c : LinPow) (inp : String → Nat → ℝ) (name : String) (i : Nat) : Option ℝ :=
  (List.range c.powers.1).foldl (fun out t => fAdd out (c.dterm inp name t i)) (some 0)

/-- What `term *= …` in line 116 does to the arrays in `coeffs`: `term` is the array itself. -/
noncomputable def LinPow.mutate (c : LinPow) (inp : String → Nat → ℝ) (name : String) : LinPow :=
  { c with coeffs := c.coeffs.zipIdx.map fun p =>
      match p.1 with
      | .num k => .num k
      | .arr a => if p.2 < c.powers.1 then .arr (c.dterm inp name p.2) else .arr a }

/-- The loop of `compute_partials` over the remaining variables: the state after it, and the values set for each. -/
noncomputable def LinPow.partialsLoop (inp : String → Nat → ℝ) :
    List String → LinPow → LinPow × List (String × (Nat → Option ℝ))
  | [], c => (c, [])
  | name :: rest, c =>
    let r := partialsLoop inp rest (c.mutate inp name)
    (r.1, (name, c.deriv inp name) :: r.2)

/-- `LinearPowerCombinationComp.compute_partials`, 94-120: the new state, and for each input the diagonal of its
partial. -/
noncomputable def LinPow.computePartials (c : LinPow) (inp : String → Nat → ℝ) :
    Except PyErr (LinPow × List (String × (Nat → Option ℝ))) :=
  if c.indexable then .ok (LinPow.partialsLoop inp c.names c) else .error .indexError

/-- The inputs added by `setup` with their sizes. -/
def LinPow.ins (c : LinPow) : List (String × Nat) := c.names.map fun n => (n, c.size)

end OM
