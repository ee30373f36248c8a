import Verif.Model.Graph
import Mathlib.Data.List.GetD

/-!
# Model of the execution of the generated OpenMDAO group

All components of an `omtools` group are added with `promotes=['*']` (group.py 92-115), so a variable
of the model is identified by its name: a component reads the variables named in its inputs and writes
the variables named in its outputs, and OpenMDAO's default solver (`NonlinearRunOnce`) runs the
components once in the order in which they were added. The OpenMDAO side of this is part of the trusted
base (DESIGN.md).
-/

namespace OM

/-- Values of all variables; `V n` is the type of values of the variable named `n` (its shape). -/
def Store (V : String → Type) : Type := (n : String) → V n

/-- An explicit component, or a subsystem seen from outside: names read, names written, and the
function computed. -/
structure Comp (V : String → Type) where
  reads : List String
  writes : List String
  f : ((i : Fin reads.length) → V reads[i]) → (n : String) → V n

/-- Running one component. -/
def Comp.run {V : String → Type} (c : Comp V) (s : Store V) : Store V :=
  fun n => if n ∈ c.writes then c.f (fun i => s c.reads[i]) n else s n

/-- `NonlinearRunOnce`: the components are run in order. -/
def runAll {V : String → Type} (comps : List (Comp V)) (s : Store V) : Store V :=
  comps.foldl (fun s c => c.run s) s

end OM
