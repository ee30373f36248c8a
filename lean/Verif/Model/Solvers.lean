import Mathlib.Logic.Relation
import Verif.Model.ImplRun
import Verif.Model.Nested

/-!
# Groups with solvers

omtools sets no solvers. A group has OpenMDAO's `NonlinearRunOnce`, which runs its subsystems in order, unless its
`setup` sets another one, as the examples do (`group.nonlinear_solver = NonlinearBlockGS(maxiter=100)`,
omtools/examples/ex_explicit.py lines 88-110, ex_implicit.py lines 90-105): that runs the subsystems in
order again and again.

Simplification: a group that is iterated stops when running its subsystems changes nothing. OpenMDAO stops when the change
is below a tolerance, or after `maxiter` passes.
-/

namespace OM

/-- One pass over a list of systems. -/
def sweep {S : Type} (f : Ref → S → S → Prop) : List Ref → S → S → Prop
  | [], s, t => t = s
  | u :: us, s, t => ∃ s', f u s s' ∧ sweep f us s' t

/-- A system whose variables are called `ρ n` is run from `S` and ends at `T`, without exceptions. The groups in `once`
have `NonlinearRunOnce`, the others are iterated until nothing changes. -/
def System.RunsTo (once : System → Prop) (size : String → Nat) :
    System → (String → String) → Store (FlatArr size) → Store (FlatArr size) → Prop
  | .comp outs, ρ, S, T => (outsCompE size (renOuts ρ outs)).run S = .ok T
  | .group genv env prog l comps sub, ρ, S, T =>
      let pass := sweep (fun u s t =>
        if (worldOf genv prog).kind u = .subsystem then (sub u).RunsTo once size ρ s t
        else (outsCompE size (renOuts ρ (l.outsOf (worldOf genv prog) (wiresOf genv prog) u))).run s = .ok t) comps
      (once (.group genv env prog l comps sub) ∧ pass S T) ∨ (Relation.ReflTransGen pass S T ∧ pass T T)
  | .promoted sys p s, ρ, S, T => s.RunsTo once size (ρ ∘ s.called sys p) S T

/-- A call to an implicit component whose internal problem is run by `run`; `linearize` does not run it
(omtools/core/implicit_component.py lines 182-200, 236-247). -/
def ImplProb.Does {V : String → Type} (p : ImplProb V) (run : Store V → Store V → Prop) :
    ImplCall V → Store V → Store V → Prop
  | .residuals x, S, T => run (p.setValues x S) T
  | .trial x out b, S, T => run ((p.setValues x S).set out b) T
  | .linearize x, S, T => T = p.setValues x S

/-- Several calls. -/
def ImplProb.DoesAll {V : String → Type} (p : ImplProb V) (run : Store V → Store V → Prop) :
    List (ImplCall V) → Store V → Store V → Prop
  | [], S, T => T = S
  | c :: cs, S, T => ∃ A, p.Does run c S A ∧ p.DoesAll run cs A T

end OM
