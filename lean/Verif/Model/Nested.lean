import Verif.Model.Compile
import Verif.Model.Promotes

/-!
# Groups with subsystems

`Group.add_subsystem` and `Group.create_group` add other groups, or components of OpenMDAO, to a group (group.py
349-427). All variables of a component are promoted (group.py 93-108), those of a group if asked for (see
`Verif.Model.Promotes`, C68). OpenMDAO runs the subsystems of a group in order, and a subsystem that is a group runs its
own subsystems in order. The variables of a component have, in the system that is run, the names that the promotions of
all groups around it give them.

Simplifications: a group has its own objects; a group filled in a `with self.create_group(…)` block that uses objects of
the group around it is left out. A variable computed in a group and read in the same group has one name: that of the
output. Promotion under another name is left out.
-/

namespace OM

/-- A system of OpenMDAO. -/
inductive System
  /-- a component, with its outputs -/
  | comp (outs : List (String × Built))
  /-- a group with the calls `prog`, for which the model of the package gives the shapes and components `l` and the order
  `comps`; `sub s` is what was added as the subsystem that has become object `s` -/
  | group (genv : GEnv) (env : SetupEnv) (prog : List Stmt) (l : Layout) (comps : List Ref) (sub : Ref → System)
  /-- a system added with `add_subsystem(sys, …)` and these promotions -/
  | promoted (sys : String) (p : Promotes) (s : System)

/-- The arrays that a component sees if its inputs `ins` are called `ρ n` instead of `n`. -/
noncomputable def seen (ρ : String → String) (ins : List (String × Nat)) (inp : String → Nat → ℝ) (n : String) : Nat → ℝ :=
  if n ∈ ins.map Prod.fst then inp (ρ n) else fun _ => 0

/-- The partial by the input called `n`. -/
def renCoo (ρ : String → String) (ins : List (String × Nat)) (P : String → Coo) (n : String) : Coo :=
  match ins.find? fun q => ρ q.1 == n with
  | none => ⟨[], [], []⟩
  | some q => P q.1

/-- The component with other names of its inputs. -/
noncomputable def Built.rename (ρ : String → String) (b : Built) : Built :=
  ⟨b.ins.map fun q => (ρ q.1, q.2), b.shape, fun inp => b.compute (seen ρ b.ins inp),
    fun inp => (b.partials (seen ρ b.ins inp)).map (renCoo ρ b.ins)⟩

/-- The component with other names of its inputs and outputs. -/
noncomputable def renOuts (ρ : String → String) (outs : List (String × Built)) : List (String × Built) :=
  outs.map fun p => (ρ p.1, p.2.rename ρ)

/-- The state of a group after its calls. -/
abbrev worldOf (genv : GEnv) (prog : List Stmt) : World := run genv (World.init genv) (ops prog)

/-- What the objects remember after the calls. -/
abbrev wiresOf (genv : GEnv) (prog : List Stmt) : Wires := Wires.run genv (World.init genv) Wires.init (ops prog)

/-- One pass over a list of systems, up to the first exception. -/
def runEach {S : Type} (f : Ref → S → Except PyErr S) : List Ref → S → Except PyErr S
  | [], s => .ok s
  | u :: us, s =>
    match f u s with
    | .error e => .error e
    | .ok s' => runEach f us s'

/-- The names of the outputs, among them the independent variables. -/
noncomputable def System.writes : System → List String
  | .comp outs => outs.map Prod.fst
  | .group genv _ prog l comps sub => comps.flatMap fun u =>
      match (worldOf genv prog).kind u with
      | .subsystem => (sub u).writes
      | .indep => [(worldOf genv prog).name u]
      | _ => (l.outsOf (worldOf genv prog) (wiresOf genv prog) u).map Prod.fst
  | .promoted sys p s => s.writes.map fun n => promotedName sys p ⟨n, decide (n ∈ s.writes)⟩

/-- The name of a variable of a system in the group around it. -/
noncomputable def System.called (sys : String) (p : Promotes) (s : System) (n : String) : String :=
  promotedName sys p ⟨n, decide (n ∈ s.writes)⟩

/-- `NonlinearRunOnce` in every group of a system whose variables are called `ρ n`. -/
noncomputable def System.runAs (size : String → Nat) :
    System → (String → String) → Store (FlatArr size) → Except PyErr (Store (FlatArr size))
  | .comp outs, ρ => (outsCompE size (renOuts ρ outs)).run
  | .group genv _ prog l comps sub, ρ => runEach (fun u =>
      if (worldOf genv prog).kind u = .subsystem then (sub u).runAs size ρ
      else (outsCompE size (renOuts ρ (l.outsOf (worldOf genv prog) (wiresOf genv prog) u))).run) comps
  | .promoted sys p s, ρ => s.runAs size (ρ ∘ s.called sys p)

/-- The system at the top. -/
noncomputable def System.run (size : String → Nat) (s : System) :
    Store (FlatArr size) → Except PyErr (Store (FlatArr size)) := s.runAs size id

/-- All components, in the order in which they are run. -/
noncomputable def System.flat : System → List (List (String × Built))
  | .comp outs => [outs]
  | .group genv _ prog l comps sub => comps.flatMap fun u =>
      if (worldOf genv prog).kind u = .subsystem then (sub u).flat
      else [l.outsOf (worldOf genv prog) (wiresOf genv prog) u]
  | .promoted sys p s => s.flat.map (renOuts (s.called sys p))

/-- The names of the inputs that no output of the system provides. -/
noncomputable def System.reads (s : System) : List String :=
  (s.flat.flatMap fun c => (insOf c).map Prod.fst).filter (· ∉ s.writes)

/-- What a group can see of its subsystems. -/
noncomputable def interface (sub : Ref → System) : Meaning Unit :=
  ⟨fun _ => (), fun _ _ => (), fun _ _ => (), fun _ _ => (), fun s => (sub s).reads, fun s => (sub s).writes,
    fun _ _ _ => ()⟩

end OM
