import Verif.Lemmas.ImplSetup
import Verif.Props.Feedback
import Verif.Props.ImplRun

/-!
# Whole implicit components (C75)

The program of an implicit component says how its residuals are computed from its inputs and outputs. The internal
problem that the component builds computes these residuals, whatever it was used for before, and the Jacobian that it
reports right after is the derivative of these residuals.
-/

namespace OM
open Spec

/-- The group of the component when it is set up as the model of the internal problem. -/
abbrev implWorld (genv : GEnv) (prog : List ImplStmt) : World :=
  (final genv (implOps prog)).removeNonresiduals (residualsOf genv prog)

/-- The internal problem: the components `comps` of the group, in the order in which they are run. -/
noncomputable def implProb (genv : GEnv) (prog : List ImplStmt) (l : Layout) (comps : List Ref) (iface : ImplInterface)
    (size : String → Nat) : ImplProb (FlatArr size) :=
  ⟨comps, l.comp (implWorld genv prog) (wires genv (implOps prog)) size, iface.outs ++ iface.ins⟩

/-- An implicit component that is accepted: its shapes and components `l`, those that are run `comps`, and its inputs and
outputs `iface`. -/
structure ImplCompiled (genv : GEnv) (env : SetupEnv) (m : Meaning Unit) (prog : List ImplStmt) (l : Layout)
    (comps : List Ref) (iface : ImplInterface) (size : String → Nat) : Prop where
  group : GroupOk genv env (implOps prog)
  fine : FineFrom genv (World.init genv) prog
  compile : compileImplicit genv prog = .ok l
  setup : setupGroup env (implWorld genv prog) = .ok comps
  vars : implVars (implWorld genv prog) genv.o env.limit (residualsOf genv prog) = .ok iface
  /-- the assumptions on programs of C69, for the residuals as functions of everything else -/
  program : ProgramOk genv env m (ops (explicitOf genv prog))
  size : ∀ u, Returned genv (ops (explicitOf genv prog)) u →
    size ((final genv (ops (explicitOf genv prog))).name u) = prodShape (l.shape u)
  first : RegisteredFirst (ops (explicitOf genv prog))
  items : ∀ a x key b, explicitOf genv prog = a ++ .getItem x key :: b →
    (final genv (ops (explicitOf genv prog))).kind x ≠ .expr ∨ l.shape x = [1]
  keys : ∀ a out key e b, explicitOf genv prog = a ++ .setItem out key e :: b → ∀ k, key = .one (.int k) → 0 ≤ k
  apart : ∀ a c b, explicitOf genv prog = a ++ .expr c :: b →
    c.Apart (final genv (ops (explicitOf genv prog))).name
  /-- the names of subsystems, and those that Python makes up for decompositions, are not those of residuals -/
  decomps : ∀ r ∈ residualsOf genv prog, ∀ d < (final genv (implOps prog)).next,
    (final genv (implOps prog)).kind d = .decomp ∨ (final genv (implOps prog)).kind d = .subsystem →
    (final genv (implOps prog)).name d ≠ (final genv (implOps prog)).name r.1
  /-- no subsystem computes an implicit output -/
  outs : ∀ o, (final genv (implOps prog)).kind o = .implicitOut → ∀ s, AddedIn genv (ops (explicitOf genv prog)) s →
    (final genv (implOps prog)).name o ∉ m.subWrites s

section
variable {genv : GEnv}

/-! ## Parts of programs -/

theorem kind_from (l : List Op) {u : Ref} {k : Kind} (h : (final genv l).kind u = k) :
    (World.init genv).kind u = k ∨ ∃ op ∈ l, k ∈ op.newKinds := by
  induction l using List.reverseRecOn with
  | nil => exact Or.inl h
  | append_singleton a op ih =>
    rw [final_snoc] at h
    rcases step_newKinds (env := genv) (w := final genv a) (op := op) u with h' | h'
    · rcases ih (h'.symm.trans h) with h1 | ⟨op', h1, h2⟩
      · exact Or.inl h1
      · exact Or.inr ⟨op', by simp [h1], h2⟩
    · exact Or.inr ⟨op, by simp, h ▸ h'⟩

theorem kind_root {l : List Op} {u : Ref} (h : (final genv l).kind u = .root) : u = 0 := by
  rcases kind_from l h with h1 | ⟨op, _, h1⟩
  · by_contra hu
    simp [World.init, hu] at h1
  · cases op <;> simp [Op.newKinds] at h1

/-- A program without subsystems and without independent variables. -/
def Flat (prog : List ImplStmt) : Prop :=
  ∀ op ∈ implOps prog, (∀ n, op ≠ .createIndep n) ∧ ∀ n, op ≠ .addSubsystem n

theorem Flat.kind {prog : List ImplStmt} (hf : Flat prog) (u : Ref) :
    (final genv (implOps prog)).kind u ≠ .indep ∧ (final genv (implOps prog)).kind u ≠ .subsystem := by
  constructor <;>
  · intro h
    rcases kind_from _ h with h1 | ⟨op, h1, h2⟩
    · simp only [World.init] at h1
      split at h1 <;> cases h1
    · have := hf op h1
      cases op <;> simp_all [Op.newKinds]

/-- Where residuals occur in the program with inputs for the implicit outputs. -/
theorem residual_explicit {prog : List ImplStmt} : ∀ {w : World} {sh : Ref → List Nat} {r : Ref × String},
    r ∈ residualsFrom genv w prog →
    ∃ a s nm b, explicitFrom genv w sh prog = a ++ .declareInput r.2 s :: .registerOutput nm r.1 :: b := by
  induction prog with
  | nil => intro w sh r h; simp [residualsFrom] at h
  | cons st prog ih =>
    intro w sh r h
    rcases List.mem_append.1 h with h | h
    · cases st with
      | stmt st => simp at h
      | createImplicit n s => simp at h
      | defineResidual out e =>
        simp only at h
        split at h
        · rw [List.mem_singleton] at h
          subst h
          exact ⟨[], sh out, w.name e, _, rfl⟩
        · simp at h
    · cases st with
      | stmt st =>
        obtain ⟨a, s, nm, b, he⟩ := ih (sh := sh) h
        exact ⟨st :: a, s, nm, b, by rw [explicitFrom]; simp only [ImplStmt.op] at he; rw [he]; rfl⟩
      | createImplicit n s' =>
        obtain ⟨a, s, nm, b, he⟩ := ih (sh := Function.update sh w.next s') h
        exact ⟨.declareInput n s' :: a, s, nm, b, by rw [explicitFrom]; simp only [ImplStmt.op] at he; rw [he]; rfl⟩
      | defineResidual out e =>
        obtain ⟨a, s, nm, b, he⟩ := ih (sh := sh) h
        exact ⟨.declareInput (w.name out) (sh out) :: .registerOutput (w.name e) e :: a, s, nm, b, by
          rw [explicitFrom]; simp only [ImplStmt.op] at he; rw [he]; rfl⟩

end

section
variable {genv : GEnv} {env : SetupEnv} {m : Meaning Unit} {prog : List ImplStmt} {l : Layout} {comps : List Ref}
  {iface : ImplInterface} {size : String → Nat}

local notation "WI" => final genv (implOps prog)
local notation "W" => final genv (ops (explicitOf genv prog))
local notation "K" => wires genv (ops (explicitOf genv prog))

/-- The component is made of the same parts as the explicit program. -/
theorem impl_sims {α : Type} {m : Meaning α} (hg : GroupOk genv env (implOps prog))
    (hf : FineFrom genv (World.init genv) prog) (hp : ProgramOk genv env m (ops (explicitOf genv prog))) :
    (∃ P, Sim P WI W) ∧ K = wires genv (implOps prog) ∧
      compileProgram genv (explicitOf genv prog) = compileImplicit genv prog := by
  obtain ⟨h1, h2, h3⟩ := sim_run (genv := genv) (WI).name prog (wi := World.init genv) (wt := World.init genv)
    (sh := fun _ => []) Wires.init (sim_init genv) (worldOk_init genv) (worldOk_init genv) (acyclic_init genv)
    (acyclic_init genv) (fun u _ => by simp only [World.init]; split <;> simp) hf hg.valid hg.safe
    hp.group.valid hp.group.safe hp.feedback
  refine ⟨h1, h2, ?_⟩
  unfold compileProgram compileImplicit
  rw [← h3 Layout.init (fun u _ hu => by simp only [World.init] at hu; split at hu <;> cases hu)]
  obtain ⟨P, h1⟩ := h1
  exact congrArg (fun nm => Layout.run genv nm _ _ _) h1.name

theorem ImplCompiled.sims (h : ImplCompiled genv env m prog l comps iface size) :
    (∃ P, Sim P WI W) ∧ K = wires genv (implOps prog) ∧ compileProgram genv (explicitOf genv prog) = .ok l := by
  obtain ⟨h1, h2, h3⟩ := impl_sims h.group h.fine h.program
  exact ⟨h1, h2, h3.trans h.compile⟩

theorem ImplCompiled.resInv (h : ImplCompiled genv env m prog l comps iface size) : ResInv WI (residualsOf genv prog) := by
  have := resInv_run (genv := genv) prog (w := World.init genv) (res := []) (worldOk_init genv)
    (fun u _ => ⟨by simp only [World.init]; split <;> simp, rfl⟩) h.fine h.group.valid
    ⟨by simp, by simp, fun u _ hu => by simp only [World.init] at hu; split at hu <;> cases hu⟩
  simpa using this

theorem built_notLeaf {w : World} {u : Ref} (h : w.built u = true) : ¬ (w.kind u).isLeaf := by
  intro hl
  cases hk : w.kind u <;> simp [World.built, hk, Kind.isLeaf] at h hl

theorem Sim.built {P : Ref → Prop} {wi wt : World} (h : Sim P wi wt) (u : Ref) : wt.built u = wi.built u := by
  unfold World.built
  rw [h.kind]
  split
  · rename_i hk
    simp [hk]
  · rfl

theorem ImplCompiled.setups (h : ImplCompiled genv env m prog l comps iface size) :
    comps.Nodup ∧ (∀ u, u ∈ comps ↔ Needs (implWorld genv prog).deps 0 u ∧ (WI).built u = true) ∧
    (∀ u v, Needs (implWorld genv prog).deps 0 u → Needs (implWorld genv prog).deps u v → (WI).built u = true →
      (WI).built v = true → Before comps v u) ∧
    ∀ u, Needs (implWorld genv prog).deps 0 u → ¬ (WI).undefinedOut u :=
  setup_comps (remove_wellFormed h.group (residualsOf genv prog)) h.setup

theorem ImplCompiled.notRoot (h : ImplCompiled genv env m prog l comps iface size) {u : Ref} (hu : u ∈ comps) : u ≠ 0 := by
  rintro rfl
  have := ((h.setups.2.1 0).1 hu).2
  simp [World.built, h.group.ok.root] at this

/-- What an object depends on is computed by something it depends on. -/
theorem ImplCompiled.up (h : ImplCompiled genv env m prog l comps iface size) {u v d : Ref} (hu : u ∈ comps)
    (hv : v ∈ (W).deps u) (hw : Writes genv (ops (explicitOf genv prog)) d v) (hb : (WI).built d = true) :
    Needs (implWorld genv prog).deps u d := by
  obtain ⟨⟨P, hs⟩, -, -⟩ := h.sims
  have pu : ¬ P u := hs.not (built_notLeaf ((h.setups.2.1 u).1 hu).2)
  have pd : ¬ P d := hs.not (built_notLeaf hb)
  refine remove_needs' h.group.ok (h.notRoot hu) ?_
  rcases hw with hw | ⟨-, rfl⟩
  · have pv : ¬ P v := by
      refine hs.not fun hl => ?_
      have := (itemOf_kind h.program.group.valid hw).1
      rw [hs.kind_eq (by decide) (by decide)] at this
      rw [this] at hl
      exact hl
    refine (Relation.TransGen.single (show Edge (WI).deps u v from (hs.deps u v pu pv).1 hv)).tail ?_
    exact (hs.deps v d pv pd).1 (itemOf_edge h.program.group.valid h.program.group.safe hw)
  · exact .single ((hs.deps u d pu pd).1 hv)

theorem ImplCompiled.arranged (h : ImplCompiled genv env m prog l comps iface size) :
    Arranged genv (ops (explicitOf genv prog)) comps := by
  obtain ⟨⟨P, hs⟩, -, -⟩ := h.sims
  obtain ⟨s1, s2, s3, s4⟩ := h.setups
  refine ⟨s1, ?_, ?_, ?_⟩
  · intro u hu
    obtain ⟨h1, h2⟩ := (s2 u).1 hu
    exact ⟨hs.needs (hs.not (built_notLeaf h2)) (remove_needs h1), (hs.built u).trans h2⟩
  · intro u hu hk
    have hk' := (hs.kind_eq (by decide) (by decide)).1 hk
    have := s4 u ((s2 u).1 hu).1
    rw [hs.defined u hk']
    simpa [World.undefinedOut, hk'] using this
  · intro u hu v d ⟨a, op, b, e, hl⟩ hw _ hb
    have he := link_edge h.program e hl
    rw [hs.built] at hb
    exact (s2 d).2 ⟨((s2 u).1 hu).1.trans (h.up hu he hw hb), hb⟩

/-- The components are run after what they use. -/
theorem ImplCompiled.order (h : ImplCompiled genv env m prog l comps iface size) :
    InOrder genv m (ops (explicitOf genv prog)) comps := by
  obtain ⟨⟨P, hs⟩, -, -⟩ := h.sims
  obtain ⟨s1, s2, s3, s4⟩ := h.setups
  have hv := h.program.group.valid
  have before : ∀ u ∈ comps, ∀ v, Needs (implWorld genv prog).deps u v → (WI).built v = true → Before comps v u :=
    fun u hu v h1 h2 => s3 u v ((s2 u).1 hu).1 h1 ((s2 u).1 hu).2 h2
  have subs : ∀ {s}, AddedIn genv (ops (explicitOf genv prog)) s → (WI).kind s = .subsystem := fun {s} h1 => by
    have := addedIn_kind (b := []) (by rw [List.append_nil]; exact hv) h1
    rw [List.append_nil] at this
    exact (hs.kind_eq (by decide) (by decide)).1 this
  have psub : ∀ {s}, (WI).kind s = .subsystem → ¬ P s := fun hk => hs.not (by rw [hk]; simp [Kind.isLeaf])
  have bsub : ∀ {s}, (WI).kind s = .subsystem → (WI).built s = true := fun hk => by simp [World.built, hk]
  refine ⟨fun u hu x hx hvar d hw => ?_, fun u hu a nm b e hx s hs' hn => ?_, fun u hu s hs' hk => ?_⟩
  · have hb := (hs.built d).symm.trans (hasVar_built hv hvar hw)
    exact before u hu d (h.up hu hx hw hb) hb
  · have pu : ¬ P u := hs.not (built_notLeaf ((s2 u).1 hu).2)
    have hadd : ∀ {r}, AddedIn genv a r → AddedIn genv (ops (explicitOf genv prog)) r := by
      rintro r ⟨a1, nm1, a2, rfl, rfl⟩
      exact ⟨a1, nm1, a2 ++ .declareInput nm :: b, by rw [e]; simp, rfl⟩
    have px : ¬ P (final genv a).next := by
      intro hp
      obtain ⟨o, h1, h2⟩ := hs.out _ hp
      refine h.outs o h1 s (hadd hs') ?_
      have h3 : (W).name (final genv a).next = nm := by
        rw [e] at hv ⊢
        exact input_name hv
      rw [h2, ← hs.name, h3]
      exact hn
    obtain ⟨r, h1, h2, h3⟩ : ∃ r ∈ (W).deps (final genv a).next, AddedIn genv a r ∧ (r = s ∨ s ∈ (W).deps r) := by
      have h1 := h.program.group.safe
      have h2 := h.program.uses
      have h3 := h.program.feedback
      rw [e] at hv h1 h2 h3 ⊢
      exact input_after_direct hv h1 h2 h3 hs'
    have kr := subs (hadd h2)
    have ks := subs (hadd hs')
    refine before u hu s (remove_needs' h.group.ok (h.notRoot hu) ?_) (bsub ks)
    have e1 : Needs (WI).deps u r := (Relation.TransGen.single (show Edge (WI).deps u _ from (hs.deps u _ pu px).1 hx)).tail
      ((hs.deps _ r px (psub kr)).1 h1)
    rcases h3 with rfl | h3
    · exact e1
    · exact e1.tail ((hs.deps r s (psub kr) (psub ks)).1 h3)
  · have hk' := (hs.kind_eq (by decide) (by decide)).1 hk
    have pu : ¬ P u := hs.not (built_notLeaf ((s2 u).1 hu).2)
    refine before u hu s (remove_needs' h.group.ok (h.notRoot hu) (.single ((hs.deps u s pu (psub hk')).1 hs'))) (bsub hk')

/-- The program with inputs for the implicit outputs, and the components that the residuals are made of. -/
theorem ImplCompiled.part (h : ImplCompiled genv env m prog l comps iface size) :
    CompiledPart genv env m (explicitOf genv prog) l comps size :=
  ⟨⟨h.program.toProgramCore, h.sims.2.2, h.arranged, h.size, h.first, h.items, h.keys, h.apart⟩, h.program, h.order⟩

theorem ImplCompiled.outsOf (h : ImplCompiled genv env m prog l comps iface size) (u : Ref) :
    l.outsOf (implWorld genv prog) (wires genv (implOps prog)) u = l.outsOf W K u := by
  obtain ⟨⟨P, hs⟩, hw, -⟩ := h.sims
  rw [hw]
  unfold Layout.outsOf
  have h1 : (implWorld genv prog).kind u = (WI).kind u := rfl
  have h2 : (implWorld genv prog).name = (W).name := hs.name.symm
  have h3 : (implWorld genv prog).indexed = (W).indexed := hs.indexed.symm
  rw [h1, h2, h3, hs.kind]
  by_cases hk : (WI).kind u = .implicitOut
  · rw [if_pos hk, hk]
  · rw [if_neg hk]

theorem ImplCompiled.comp (h : ImplCompiled genv env m prog l comps iface size) (u : Ref) :
    (implProb genv prog l comps iface size).comp u = l.comp W K size u := by
  show outsComp size _ = outsComp size _
  rw [h.outsOf]

theorem ImplCompiled.compE (h : ImplCompiled genv env m prog l comps iface size) (u : Ref) :
    l.compE (implWorld genv prog) (wires genv (implOps prog)) size u = l.compE W K size u := by
  show outsCompE size _ = outsCompE size _
  rw [h.outsOf]

/-! ## The inputs and outputs of the component -/

theorem ImplCompiled.hasVar (h : ImplCompiled genv env m prog l comps iface size) {r : Ref × String}
    (hr : r ∈ residualsOf genv prog) : Returned genv (ops (explicitOf genv prog)) r.1 ∧ HasVar W r.1 := by
  obtain ⟨⟨P, hs⟩, -, -⟩ := h.sims
  obtain ⟨a, s, nm, b, he⟩ := residual_explicit (sh := fun _ => []) hr
  have hret : Returned genv (ops (explicitOf genv prog)) r.1 := by
    have e1 : ops (explicitOf genv prog) = (ops a ++ [.declareInput r.2]) ++ .registerOutput nm r.1 :: ops b := by
      rw [explicitOf, he, ops_append]; simp [Stmt.op]
    have := (h.program.uses _ _ _ e1 r.1 (by simp [Op.uses])).mono (b := .registerOutput nm r.1 :: ops b)
    rwa [← e1] at this
  refine ⟨hret, ?_⟩
  obtain ⟨h1, h2⟩ := returned_kind h.program.group.valid hret
  obtain ⟨-, k1, k2, -⟩ := h.resInv.mem r hr
  refine ⟨h1.2, h2.resolve_left ?_⟩
  rw [hs.kind_same k2]
  exact k1

/-- The leaves that expressions of the component depend on have the names of declared inputs. -/
theorem ImplCompiled.leaf (h : ImplCompiled genv env m prog l comps iface size) {u x : Ref} (hx : x ∈ (WI).deps u)
    (hl : ((WI).kind x).isLeaf) : ∃ y, Returned genv (ops (explicitOf genv prog)) y ∧ (W).kind y = .input ∧
      (W).name y = (WI).name x := by
  obtain ⟨⟨P, hs⟩, -, -⟩ := h.sims
  have isInput : ∀ {y}, ((WI).kind y).isLeaf → (W).kind y = .input := fun {y} h2 => by
    rw [hs.kind]
    cases hy : (WI).kind y <;> simp [hy, Kind.isLeaf] at h2 ⊢
  have ret : ∀ {y}, y ∈ (W).deps u → (W).kind y = .input → Returned genv (ops (explicitOf genv prog)) y := fun h1 hk =>
    inputs_returned h.program.group.valid h.program.group.safe h.program.uses h.program.feedback h1 hk
  by_cases hp : P x
  · obtain ⟨y, h1, h2, h3⟩ := hs.leaves u x hx hp
    have hk := isInput (hs.leaf y h2).1
    exact ⟨y, ret h1 hk, hk, by rw [hs.name, h3]⟩
  · exact ⟨x, ret (hs.edge hp hx) (isInput hl), isInput hl, by rw [hs.name]⟩

theorem ImplCompiled.names (h : ImplCompiled genv env m prog l comps iface size) {r : Ref × String}
    (hr : r ∈ residualsOf genv prog) {x : Ref} (hx : Needs (implWorld genv prog).deps r.1 x) :
    (implWorld genv prog).name x ≠ (implWorld genv prog).name r.1 := by
  obtain ⟨⟨P, hs⟩, -, -⟩ := h.sims
  have hx' := remove_needs hx
  obtain ⟨c, -, hc⟩ := Relation.TransGen.tail'_iff.1 hx'
  have hlt := h.group.ok.range c x hc
  have hvar := (h.hasVar hr).2
  show (WI).name x ≠ (WI).name r.1
  by_cases hl : ((WI).kind x).isLeaf
  · obtain ⟨y, h1, h2, h3⟩ := h.leaf hc hl
    rw [← h3, ← hs.name]
    exact (input_unwritten h.part h1 h2 hvar).symm
  · by_cases hd : (WI).kind x = .decomp ∨ (WI).kind x = .subsystem
    · exact h.decomps r hr x hlt.2 hd
    · intro he
      have hv : HasVar W x := by
        refine ⟨by rw [hs.next]; exact hlt.2, ?_⟩
        rw [hs.kind]
        have h0 := fun h0 : (WI).kind x = .root => (show x ≠ 0 by omega) (kind_root h0)
        cases hk : (WI).kind x <;> simp_all [Kind.isLeaf]
      have := h.program.own x r.1 hv hvar (by rw [hs.name]; exact he)
      subst this
      exact h.group.acyclic _ hx'

theorem ImplCompiled.chains (h : ImplCompiled genv env m prog l comps iface size) (r : Ref × String)
    (hr : r ∈ residualsOf genv prog) : ChainsLt (implWorld genv prog).deps r.1 env.limit := by
  have ok := h.group.ok
  have := chainsLt_of_acyclic (g := (implWorld genv prog).deps) (u := r.1) (List.range (WI).next) ?_ ?_
  · intro c hc
    have := this c hc
    have h2 := h.group.size
    simp only [List.length_range] at this
    exact this.trans h2
  · intro v hv
    rcases Relation.ReflTransGen.cases_tail hv with rfl | ⟨c, _, hc⟩
    · have := (h.resInv.mem r hr).1
      simpa using (ok.range 0 _ this).2
    · simpa using (ok.range c v (remove_edge hc)).2
  · intro v _ hv
    exact h.group.acyclic v (remove_needs hv)

/-- The component has the implicit outputs as outputs, and as inputs what the residuals depend on. -/
theorem ImplCompiled.iface_iff (h : ImplCompiled genv env m prog l comps iface size) :
    (∀ n, n ∈ iface.outs ↔ ∃ r ∈ residualsOf genv prog, n = r.2) ∧
    (∀ n, n ∈ iface.ins ↔ ∃ r ∈ residualsOf genv prog, ResInput (implWorld genv prog) r n) ∧
    (∀ a b, (a, b) ∈ iface.wrt ↔ ∃ r ∈ residualsOf genv prog, a = r.2 ∧ (b = r.2 ∨ ResInput (implWorld genv prog) r b)) ∧
    (iface.outs ++ iface.ins).Nodup := by
  have hmem : ∀ r, r ∈ ((implWorld genv prog).deps 0).filterMap (fun x => (residualsOf genv prog).find? fun r => r.1 == x) ↔
      r ∈ residualsOf genv prog := by
    intro r
    rw [List.mem_filterMap]
    constructor
    · rintro ⟨x, _, hx⟩
      exact List.mem_of_find?_eq_some hx
    · intro hr
      refine ⟨r.1, (remove_root r.1).2 ⟨(h.resInv.mem r hr).1, List.mem_map.2 ⟨r, hr, rfl⟩⟩, ?_⟩
      cases hf : (residualsOf genv prog).find? fun r' => r'.1 == r.1 with
      | none =>
        have := List.find?_eq_none.1 hf r hr
        simp at this
      | some r' =>
        have h1 := List.mem_of_find?_eq_some hf
        have h2 := List.find?_some hf
        rw [List.inj_on_of_nodup_map h.resInv.nodup h1 hr (by simpa using h2)]
  obtain ⟨h1, h2, h3, h4⟩ := c53_interface_partial (fun r hr => h.chains r ((hmem r).1 hr))
    (fun r hr x hx => h.names ((hmem r).1 hr) hx) h.vars
  refine ⟨fun n => ?_, fun n => ?_, fun a b => ?_, h4⟩
  · rw [h1, List.mem_map]
    exact ⟨fun ⟨r, hr, e⟩ => ⟨r, (hmem r).1 hr, e.symm⟩, fun ⟨r, hr, e⟩ => ⟨r, (hmem r).2 hr, e.symm⟩⟩
  · rw [h2]
    exact ⟨fun ⟨r, hr, e⟩ => ⟨r, (hmem r).1 hr, e⟩, fun ⟨r, hr, e⟩ => ⟨r, (hmem r).2 hr, e⟩⟩
  · rw [h3]
    exact ⟨fun ⟨r, hr, e⟩ => ⟨r, (hmem r).1 hr, e⟩, fun ⟨r, hr, e⟩ => ⟨r, (hmem r).2 hr, e⟩⟩

/-- Nothing is computed under the name of an input or output of the component. -/
theorem ImplCompiled.unwritten (h : ImplCompiled genv env m prog l comps iface size) {n : String}
    (hn : n ∈ iface.outs ++ iface.ins) {v : Ref} (hv : HasVar W v) : (W).name v ≠ n := by
  obtain ⟨i1, i2, -, -⟩ := h.iface_iff
  rcases List.mem_append.1 hn with hn | hn
  · obtain ⟨r, hr, rfl⟩ := (i1 n).1 hn
    obtain ⟨a, s, nm, b, he⟩ := residual_explicit (sh := fun _ => []) hr
    exact (h.program.inputs (ops a) r.2 (.registerOutput nm r.1 :: ops b) (by
      rw [explicitOf, he, ops_append]; rfl)).1 v hv
  · obtain ⟨r, hr, -, x, hf, hx, rfl⟩ := (i2 n).1 hn
    obtain ⟨c, -, hc⟩ := Relation.TransGen.tail'_iff.1 (remove_needs hx)
    have hl : ((WI).kind x).isLeaf := by
      have : (WI).kind x = .input := hf.1
      rw [this]; trivial
    obtain ⟨y, h1, h2, h3⟩ := h.leaf hc hl
    show _ ≠ (WI).name x
    rw [← h3]
    exact input_unwritten h.part h1 h2 hv

/-- The inputs that the components read are inputs and outputs of the component, unless they are declared after a
subsystem (C53). -/
theorem ImplCompiled.given_of (h : ImplCompiled genv env m prog l comps iface size) {u v : Ref} (hu : u ∈ comps)
    (hv : v ∈ (W).deps u) (hk : (W).kind v = .input) (h0 : (WI).kind v = .input → (WI).deps v = []) :
    (W).name v ∈ iface.outs ++ iface.ins := by
  obtain ⟨⟨P, hs⟩, -, -⟩ := h.sims
  obtain ⟨i1, i2, -, -⟩ := h.iface_iff
  obtain ⟨hn0, hb0⟩ := (h.setups.2.1 u).1 hu
  have hlt := (h.program.group.ok.range u v hv)
  have hout : (WI).kind v = .implicitOut → (WI).defined v = true → (W).name v ∈ iface.outs ++ iface.ins := by
    intro h1 h2
    obtain ⟨e, he⟩ := h.resInv.defined v (by rw [← hs.next]; exact hlt.2) h1 h2
    rw [hs.name]
    exact List.mem_append.2 (Or.inl ((i1 _).2 ⟨_, he, rfl⟩))
  rcases hs.reads u v (h.notRoot hu) (hs.not (built_notLeaf hb0)) hv with h1 | ⟨h1, h2⟩
  · have hedge : v ∈ (implWorld genv prog).deps u := by rw [remove_deps (h.notRoot hu)]; exact h1
    by_cases hki : (WI).kind v = .implicitOut
    · have := h.setups.2.2.2 v (hn0.tail hedge)
      exact hout hki (by simpa [World.undefinedOut, hki] using this)
    · have hkv : (WI).kind v = .input := by rw [← hs.kind_same hki]; exact hk
      obtain ⟨e, he, hreach⟩ := Relation.TransGen.head'_iff.1 hn0
      obtain ⟨r, hr, rfl⟩ := List.mem_map.1 ((remove_root e).1 he).2
      by_cases hnm : (W).name v = r.2
      · exact List.mem_append.2 (Or.inl ((i1 _).2 ⟨r, hr, hnm⟩))
      · refine List.mem_append.2 (Or.inr ((i2 _).2 ⟨r, hr, hnm, v, ⟨hkv, ?_⟩, Relation.TransGen.tail' hreach hedge, ?_⟩))
        · rw [remove_deps (by omega)]
          exact h0 hkv
        · rw [hs.name]; rfl
  · exact hout h1 h2

theorem ImplCompiled.plain_leaf (h : ImplCompiled genv env m prog l comps iface size) (hpl : Flat prog) {v : Ref}
    (hk : (WI).kind v = .input) : (WI).deps v = [] := by
  refine List.eq_nil_iff_forall_not_mem.2 fun x hx => ?_
  obtain ⟨a, nm, b, e, -, a1, nm1, a2, rfl, -⟩ := input_deps h.group.valid h.group.safe hk hx
  exact (hpl (.addSubsystem nm1) (by rw [e]; simp)).2 nm1 rfl

/-- The internal problem is as C73 assumes. -/
theorem ImplCompiled.ok (h : ImplCompiled genv env m prog l comps iface size) (hpl : Flat prog) :
    (implProb genv prog l comps iface size).Ok := by
  have hp := h.part
  have hcomp : (implProb genv prog l comps iface size).comp = l.comp W K size := funext h.comp
  have hval := h.program.group.valid
  have given : ∀ n ∈ iface.outs ++ iface.ins, ∀ v ∈ comps, n ∉ (l.comp W K size v).writes := by
    intro n hn v hv hw
    rcases comps_cases hp.toCompiledOn hv with ⟨-, h1⟩ | ⟨refs, hc⟩
    · simp [Layout.comp, h1, outsComp] at hw
    · obtain ⟨p, hp1, rfl⟩ := List.mem_map.1 hw
      obtain ⟨v', n1, r1, -, k1, k2, -⟩ := hc.out p hp1
      have hvar : HasVar W v' := by
        obtain ⟨q1, q2⟩ := returned_kind hval r1
        exact ⟨q1.2, q2.resolve_left k1⟩
      exact h.unwritten hn hvar n1.symm
  refine ⟨h.setups.1, ?_, ?_, ?_⟩
  · rw [hcomp]; exact compiled_own hp.toCompiledOn
  · rw [hcomp]
    intro u hu n hn
    have hread := realises_reads h.program (oldNames hp.toCompiledOn) h.arranged h.order (compiled_realises hp.toCompiledOn) u hu n hn
    refine hread.imp (fun hno => ⟨hno, ?_⟩) id
    rcases comps_cases hp.toCompiledOn hu with ⟨-, h1⟩ | ⟨refs, hc⟩
    · simp [Layout.comp, h1, outsComp, insOf] at hn
    · obtain ⟨q, hq, rfl⟩ := List.mem_map.1 hn
      obtain ⟨v, hv, rfl⟩ := hc.insOf_wired.2.1 q hq
      obtain ⟨hr, a, op, b, e, hl⟩ := hc.needs v hv
      have hedge := link_edge h.program e hl
      by_cases hk : (W).kind v = .input
      · exact h.given_of hu hedge hk (h.plain_leaf hpl)
      · exfalso
        obtain ⟨-, hv'⟩ := operand_valued hp.toCompiledOn hu hr ⟨a, op, b, e, hl⟩
        obtain ⟨d, hd, hw⟩ := hv'.resolve_left hk
        rcases comps_cases hp.toCompiledOn hd with ⟨h1, -⟩ | ⟨refs', hc'⟩
        · obtain ⟨⟨P, hs⟩, -, -⟩ := h.sims
          have hf := hpl.kind (genv := genv) d
          rcases h1 with h1 | h1
          · exact hf.1 ((hs.kind_eq (by decide) (by decide)).1 h1)
          · exact hf.2 ((hs.kind_eq (by decide) (by decide)).1 h1)
        · exact hno d hd (hc'.own v hr hw)
  · rw [hcomp]; exact given

/-! ## What the component computes -/

/-- The residuals are computed. -/
theorem ImplCompiled.valued (h : ImplCompiled genv env m prog l comps iface size) {r : Ref × String}
    (hr : r ∈ residualsOf genv prog) :
    Valued genv (explicitOf genv prog) comps r.1 ∧ (W).kind r.1 ≠ .input := by
  obtain ⟨⟨P, hs⟩, -, -⟩ := h.sims
  obtain ⟨hret, hvar⟩ := h.hasVar hr
  have hv := h.program.group.valid
  have hk : (W).kind r.1 ≠ .input ∧ (W).kind r.1 ≠ .implicitOut ∧ (W).kind r.1 ≠ .root := by
    rcases hvar.2 with h1 | h1 | h1 | h1 <;> rw [h1] <;> decide
  refine ⟨⟨hret, Or.inr ?_⟩, hk.1⟩
  obtain ⟨d, hw, -⟩ := exists_writer hv r.1
  have hb := writes_built hv hw hk.2.2 hk.1 hk.2.1
  have hb' : (WI).built d = true := (hs.built d).symm.trans hb
  have hroot : r.1 ∈ (implWorld genv prog).deps 0 :=
    (remove_root r.1).2 ⟨(h.resInv.mem r hr).1, List.mem_map.2 ⟨r, hr, rfl⟩⟩
  refine ⟨d, (h.setups.2.1 d).2 ⟨?_, hb'⟩, hw⟩
  rcases hw with hw | ⟨-, rfl⟩
  · have hkr := hs.not (u := r.1) (notLeaf (h.resInv.mem r hr).2.1 (h.resInv.mem r hr).2.2.1)
    have h1 := (hs.deps r.1 d hkr (hs.not (built_notLeaf hb'))).1 (itemOf_edge hv h.program.group.safe hw)
    have h0 := (h.group.ok.range 0 r.1 (h.resInv.mem r hr).1).1
    refine (Relation.TransGen.single (show Edge (implWorld genv prog).deps 0 r.1 from hroot)).tail ?_
    show d ∈ _
    rw [remove_deps (by omega)]
    exact h1
  · exact .single hroot

/-- The values that the internal problem holds when it has been run. -/
theorem ImplCompiled.after_residuals (h : ImplCompiled genv env m prog l comps iface size) (s x : Store (FlatArr size)) :
    (implProb genv prog l comps iface size).after s (.residuals x) =
      runAll (comps.map (l.comp W K size)) ((implProb genv prog l comps iface size).setValues x s) := by
  show runAll (comps.map (implProb genv prog l comps iface size).comp) _ = _
  rw [show (implProb genv prog l comps iface size).comp = l.comp W K size from funext h.comp]

/-- **C75, residuals.** Whatever the component was used for before, `apply_nonlinear` with the values `x` of its inputs
and outputs raises no exception, keeps these values, and computes arrays that satisfy the equations of the program, if
no call is evaluated outside its domain. All residuals are among them. -/
theorem c75_residuals (h : ImplCompiled genv env m prog l comps iface size) (hpl : Flat prog) (s : Store (FlatArr size))
    (cs : List (ImplCall (FlatArr size))) (x : Store (FlatArr size)) :
    let p := implProb genv prog l comps iface size
    let S := p.after (p.history s cs) (.residuals x)
    RunsDefined genv (explicitOf genv prog) l.shape comps (held l W S) →
    runAllE (comps.map (l.compE (implWorld genv prog) (wires genv (implOps prog)) size))
      (p.setValues x (p.history s cs)) = .ok S ∧
    (∀ n ∈ iface.outs ++ iface.ins, S n = x n) ∧
    Solves genv (explicitOf genv prog) l.shape comps (held l W S) ∧
    ∀ r ∈ residualsOf genv prog, Valued genv (explicitOf genv prog) comps r.1 := by
  intro p S hd
  have hS : S = runAll (comps.map (l.comp W K size)) (p.setValues x (p.history s cs)) := h.after_residuals _ x
  rw [hS] at hd
  obtain ⟨h1, h2⟩ := part_solves h.part _ hd
  refine ⟨?_, fun n hn => ?_, hS ▸ h1, fun r hr => (h.valued hr).1⟩
  · rw [hS, show l.compE (implWorld genv prog) (wires genv (implOps prog)) size = l.compE W K size from
      funext fun u => h.compE u]
    exact runE_ok h.part h1 h2
  · show runAll (p.order.map p.comp) (p.setValues x (p.history s cs)) n = x n
    rw [runAll_untouched p.order _ ((h.ok hpl).given n hn)]
    exact if_pos hn

/-- A component that computes an object writes its variable. -/
theorem ImplCompiled.owned (h : ImplCompiled genv env m prog l comps iface size) (hpl : Flat prog) {u d : Ref}
    (hu : Returned genv (ops (explicitOf genv prog)) u) (hd : d ∈ comps) (hw : Writes genv (ops (explicitOf genv prog)) d u) :
    (W).name u ∈ (l.comp W K size d).writes := by
  rcases comps_cases h.part.toCompiledOn hd with ⟨h1, -⟩ | ⟨refs, hc⟩
  · obtain ⟨⟨P, hs⟩, -, -⟩ := h.sims
    have hf := hpl.kind (genv := genv) d
    rcases h1 with h1 | h1
    · exact absurd ((hs.kind_eq (by decide) (by decide)).1 h1) hf.1
    · exact absurd ((hs.kind_eq (by decide) (by decide)).1 h1) hf.2
  · exact hc.own u hu hw

/-- Everything that is computed depends on the inputs and outputs of the component only. -/
theorem ImplCompiled.run_eq (h : ImplCompiled genv env m prog l comps iface size) (hpl : Flat prog) (s x : Store (FlatArr size)) {u : Ref}
    (hu : Valued genv (explicitOf genv prog) comps u) (hk : (W).kind u ≠ .input) :
    (implProb genv prog l comps iface size).after s (.residuals x) ((W).name u) =
      runAll (comps.map (l.comp W K size)) x ((W).name u) := by
  have hcomp : (implProb genv prog l comps iface size).comp = l.comp W K size := funext h.comp
  obtain ⟨d, hd, hw⟩ := hu.2.resolve_left hk
  refine (c73_residuals (h.ok hpl) s [] x _ ⟨d, hd, hcomp ▸ h.owned hpl hu.1 hd hw⟩ _).2 ?_
  rw [hcomp]
  have := runAll_eval (h.ok hpl).nodup (h.ok hpl).own (h.ok hpl).reads' x ((W).name u)
  rw [hcomp] at this
  exact this

/-- **C75, values.** If the arrays `val` satisfy the equations of the program and are those of `x` for the inputs and
implicit outputs, then the component computes them: the residual of each implicit output is the array `val` of its
residual expression. -/
theorem c75_values (h : ImplCompiled genv env m prog l comps iface size) (hpl : Flat prog) (s : Store (FlatArr size))
    (cs : List (ImplCall (FlatArr size))) (x : Store (FlatArr size)) {val : Ref → Nat → ℝ}
    (hs : Solves genv (explicitOf genv prog) l.shape comps val) (hi : Starts genv (explicitOf genv prog) x val) :
    let p := implProb genv prog l comps iface size
    let S := p.after (p.history s cs) (.residuals x)
    (∀ u, Valued genv (explicitOf genv prog) comps u → (W).kind u ≠ .input →
      ∀ i : Fin (size ((W).name u)), S ((W).name u) i = val u i) ∧
    ∀ r ∈ residualsOf genv prog, ∀ i : Fin (size ((W).name r.1)), S ((W).name r.1) i = val r.1 i := by
  intro p S
  have key : ∀ u, Valued genv (explicitOf genv prog) comps u → (W).kind u ≠ .input →
      ∀ i : Fin (size ((W).name u)), S ((W).name u) i = val u i := by
    intro u hu hk i
    rw [show S ((W).name u) = _ from h.run_eq hpl (p.history s cs) x hu hk]
    exact run_val h.part hs hi hu i
  exact ⟨key, fun r hr => key r.1 (h.valued hr).1 (h.valued hr).2⟩

/-- A trial run is a run with the trial value for the output. -/
theorem after_trial {V : String → Type} (p : ImplProb V) (s x : Store V) {out : String} (ho : out ∈ p.given) (b : V out) :
    p.after s (.trial x out b) = p.after s (.residuals (Function.update x out b)) := by
  have : (p.setValues x s).set out b = p.setValues (Function.update x out b) s := by
    funext n
    by_cases hn : n = out
    · subst hn
      simp [ImplProb.setValues, Store.set, Function.update, ho]
    · simp [ImplProb.setValues, Store.set, Function.update, hn]
  simp only [ImplProb.after, this]

/-- **C75, trial runs** of the bisection: the same, with the trial value for the output. -/
theorem c75_trial (h : ImplCompiled genv env m prog l comps iface size) (hpl : Flat prog) (s : Store (FlatArr size))
    (cs : List (ImplCall (FlatArr size))) (x : Store (FlatArr size)) {out : String} (ho : out ∈ iface.outs)
    (b : FlatArr size out) {val : Ref → Nat → ℝ} (hs : Solves genv (explicitOf genv prog) l.shape comps val)
    (hi : Starts genv (explicitOf genv prog) (Function.update x out b) val) :
    let p := implProb genv prog l comps iface size
    ∀ r ∈ residualsOf genv prog, ∀ i : Fin (size ((W).name r.1)),
      p.after (p.history s cs) (.trial x out b) ((W).name r.1) i = val r.1 i := by
  intro p r hr i
  rw [after_trial p _ x (List.mem_append.2 (Or.inl ho)) b]
  exact (c75_values h hpl s cs (Function.update x out b) hs hi).2 r hr i

/-- **C75, Jacobian.** If the last call before `linearize` asked for the residuals at the same inputs and outputs, and no
call of the program is evaluated outside its domain there, then the system that `compute_totals` solves with the partials
of the components has exactly one solution, and it is the derivative of the residuals by the inputs and outputs.
Missing: any other call before `linearize` (`c73_stale_violated`). -/
theorem c75_jacobian_partial {P : Type} [NormedAddCommGroup P] [NormedSpace ℝ P]
    (h : ImplCompiled genv env m prog l comps iface size) (hpl : Flat prog) (s : Store (FlatArr size))
    (cs : List (ImplCall (FlatArr size))) (x : P → Store (FlatArr size)) (q₀ : P)
    (d₀ : (n : String) → P →L[ℝ] FlatArr size n) (hx : ∀ n ∈ iface.outs ++ iface.ins, HasFDerivAt (fun q => x q n) (d₀ n) q₀)
    (h₀ : ∀ n, n ∉ iface.outs ++ iface.ins → d₀ n = 0) :
    let p := implProb genv prog l comps iface size
    RunsDefined genv (explicitOf genv prog) l.shape comps
      (held l W (p.after (p.history s cs) (.residuals (x q₀)))) →
    ∃ d : (n : String) → P →L[ℝ] FlatArr size n,
      (∀ d', TotalSystem (· ∈ comps) p.comp (l.partials (implWorld genv prog) (wires genv (implOps prog)) size)
        (p.history s (cs ++ [.residuals (x q₀), .linearize (x q₀)])) d₀ d' ↔ d' = d) ∧
      ∀ r ∈ residualsOf genv prog, ∀ s' cs',
        HasFDerivAt (fun q => p.after (p.history s' cs') (.residuals (x q)) ((W).name r.1)) (d ((W).name r.1)) q₀ := by
  intro p hd
  have hcomp : p.comp = l.comp W K size := funext h.comp
  -- `linearize` does not change anything after a run with the same values
  have hpoint : p.history s (cs ++ [.residuals (x q₀), .linearize (x q₀)]) = p.after (p.history s cs) (.residuals (x q₀)) := by
    rw [ImplProb.history, List.foldl_append]
    show p.after (p.after (p.history s cs) (.residuals (x q₀))) (.linearize (x q₀)) = _
    funext n
    simp only [ImplProb.after]
    by_cases hn : n ∈ p.given
    · rw [runAll_untouched _ _ ((h.ok hpl).given n hn)]
      simp [ImplProb.setValues, hn]
    · simp [ImplProb.setValues, hn]
  have hexact : ∀ u ∈ p.order, (l.partials (implWorld genv prog) (wires genv (implOps prog)) size u).ExactAt fun i =>
      p.history s (cs ++ [.residuals (x q₀), .linearize (x q₀)]) (p.comp u).reads[i] := by
    intro u hu
    rw [hpoint]
    have hex := (c74_partials h.part.toCompiledOn hd hu).1
    have key : ∀ outs, outs = l.outsOf W K u → (outsD size outs).ExactAt fun i =>
        p.after (p.history s cs) (.residuals (x q₀)) (outsComp size outs).reads[i] := by
      rintro _ rfl
      exact hex
    exact key _ (h.outsOf u)
  obtain ⟨d, h1, h2⟩ := c73_jacobian_partial (P := P) (h.ok hpl)
    (l.partials (implWorld genv prog) (wires genv (implOps prog)) size) s cs x q₀ d₀ hx h₀ hexact
  refine ⟨d, h1, fun r hr s' cs' => h2 _ ?_ s' cs'⟩
  obtain ⟨hu, hk⟩ := h.valued hr
  obtain ⟨c, hc, hw⟩ := hu.2.resolve_left hk
  exact ⟨c, hc, hcomp ▸ h.owned hpl hu.1 hc hw⟩

/-- **C75, solution.** If the component has a bracketed output and its residual is, elementwise, a continuous function
that changes sign between the brackets, then the array that `solve_nonlinear` stores is within `|x2 - x1| / 2 ^ 101` of
an array for which the equations of the program hold with residual zero. The trial runs start from whatever the problem
held before. Missing: residuals that are not elementwise (`c48_coupled`), more than one output
(`c49_two_outputs`). -/
theorem c75_solved_partial (h : ImplCompiled genv env m prog l comps iface size) (hpl : Flat prog) (s : Store (FlatArr size))
    (x : Store (FlatArr size)) {out : String} (ho : out ∈ iface.outs) {r : Ref} (hr : (r, out) ∈ residualsOf genv prog)
    (x1 x2 : Arr) {val : Arr → Ref → Nat → ℝ}
    (hs : ∀ z, (∀ j, z j ∈ Set.uIcc (x1 j) (x2 j)) → Solves genv (explicitOf genv prog) l.shape comps (val z))
    (hi : ∀ z : Arr, (∀ j, z j ∈ Set.uIcc (x1 j) (x2 j)) →
      Starts genv (explicitOf genv prog) (Function.update x out fun i => z i) (val z)) {ρ : Nat → ℝ → ℝ} {N : Nat}
    (hN : N ≤ size ((W).name r))
    (hρ : ∀ z, (∀ j, z j ∈ Set.uIcc (x1 j) (x2 j)) → ∀ i < N, val z r i = ρ i (z i)) (f : Arr → Arr)
    (hf : ∀ z, (∀ j, z j ∈ Set.uIcc (x1 j) (x2 j)) → ∃ cs, ∀ i, f z i = if hi : i < size ((W).name r) then
      (implProb genv prog l comps iface size).after ((implProb genv prog l comps iface size).history s cs)
        (.trial x out fun i => z i) ((W).name r) ⟨i, hi⟩ else 0)
    (hsign : ∀ i < N, ρ i (x1 i) * ρ i (x2 i) ≤ 0)
    (hcont : ∀ i < N, ContinuousOn (ρ i) (Set.uIcc (x1 i) (x2 i))) :
    ∃ z : Arr, (∀ j, z j ∈ Set.uIcc (x1 j) (x2 j)) ∧
      ∀ i < N, val z r i = 0 ∧ |bisect f 100 x1 x2 i - z i| ≤ |x2 i - x1 i| / 2 ^ 101 := by
  obtain ⟨z, hz, h'⟩ := c48_roots (f := f) (ρ := ρ) x1 x2 N (fun z hz i hlt => by
    obtain ⟨cs, h1⟩ := hf z hz
    rw [h1 i, dif_pos (hlt.trans_le hN), ← hρ z hz i hlt]
    exact c75_trial h hpl s cs x ho _ (hs z hz) (hi z hz) (r, out) hr ⟨i, hlt.trans_le hN⟩) hsign hcont 100
  exact ⟨z, hz, fun i hi => ⟨by rw [hρ z hz i hi]; exact (h' i hi).1, (h' i hi).2⟩⟩

end

/-! ## A component for the square root -/

/-- `x` (1), the implicit output `y` (2), `y ** 2` (3), and `y ** 2 - x` (4), which is the residual (the new object for `y`
is 5). -/
noncomputable def rootProg : List ImplStmt :=
  [.stmt (.declareInput "x" [1]), .createImplicit "y" [1], .stmt (.expr (.pow 2 2)),
   .stmt (.expr (.sub (.ref 3) (.ref 1))), .defineResidual 2 4]

def rootOps : List Op :=
  [.declareInput "x", .createImplicit "y", .combine [2], .combine [3, 1], .defineResidual 2 4]

noncomputable def rootExplicit : List Stmt :=
  [.declareInput "x" [1], .declareInput "y" [1], .expr (.pow 2 2), .expr (.sub (.ref 3) (.ref 1)),
   .declareInput "y" [1], .registerOutput "____" 4]

def rootExplicitOps : List Op :=
  [.declareInput "x", .declareInput "y", .combine [2], .combine [3, 1], .declareInput "y", .registerOutput "____" 4]

theorem root_ops : implOps rootProg = rootOps := rfl
theorem root_explicit : explicitOf progGEnv rootProg = rootExplicit := rfl
theorem root_explicitOps : ops rootExplicit = rootExplicitOps := rfl
theorem root_residuals : residualsOf progGEnv rootProg = [(4, "y")] := by decide

theorem root_added {s : Ref} : ¬ AddedIn progGEnv rootExplicitOps s := by
  rintro ⟨a, nm, b, e, rfl⟩
  obtain ⟨i, hi, rfl, h1, _⟩ := split_cases e
  change i < 6 at hi
  interval_cases i <;> simp [rootExplicitOps] at h1

theorem root_group : GroupOk progGEnv demoEnv rootOps :=
  groupOk_of_check (by decide) ⟨trivial, trivial, trivial, trivial, trivial, trivial⟩ (by decide) 8
    pyOrder_ascending (by decide)

theorem root_programOk {m : Meaning Unit} : ProgramOk progGEnv demoEnv m rootExplicitOps where
  group := groupOk_of_check (by decide) ⟨trivial, trivial, trivial, trivial, trivial, trivial, trivial⟩ (by decide) 8
    pyOrder_ascending (by decide)
  uses := by
    intro a op b e u hu
    obtain ⟨i, hi, rfl, h1, _⟩ := split_cases e
    change i < 6 at hi
    have r1 : ∀ k, Returned progGEnv (rootExplicitOps.take (k + 1)) 1 := fun k =>
      ⟨[], .declareInput "x", _, rfl, by show _ = _; decide⟩
    have r2 : ∀ k, Returned progGEnv (rootExplicitOps.take (k + 2)) 2 := fun k =>
      ⟨rootExplicitOps.take 1, .declareInput "y", _, rfl, by show _ = _; decide⟩
    have r3 : ∀ k, Returned progGEnv (rootExplicitOps.take (k + 3)) 3 := fun k =>
      ⟨rootExplicitOps.take 2, .combine [2], _, rfl, by show _ = _; decide⟩
    have r4 : ∀ k, Returned progGEnv (rootExplicitOps.take (k + 4)) 4 := fun k =>
      ⟨rootExplicitOps.take 3, .combine [3, 1], _, rfl, by show _ = _; decide⟩
    interval_cases i <;> simp [rootExplicitOps] at h1 <;> subst h1 <;> simp [Op.uses] at hu
    · subst hu; exact r2 0
    · rcases hu with rfl | rfl
      · exact r3 0
      · exact r1 2
    · subst hu; exact r4 1
  feedback := by
    intro a out e b h
    obtain ⟨i, hi, rfl, h1, _⟩ := split_cases h
    change i < 6 at hi
    interval_cases i <;> simp [rootExplicitOps] at h1
  own := by
    rintro u v ⟨hu, hu'⟩ ⟨hv, hv'⟩
    change u < 6 at hu
    change v < 6 at hv
    revert hu' hv'
    interval_cases u <;> interval_cases v <;> decide
  subs := fun s n hs => absurd hs root_added
  inputs := by
    intro a nm b h
    obtain ⟨i, hi, rfl, h1, _⟩ := split_cases h
    change i < 6 at hi
    have key : ∀ n, (n = "x" ∨ n = "y") → ∀ u, HasVar (final progGEnv rootExplicitOps) u →
        (final progGEnv rootExplicitOps).name u ≠ n := by
      rintro n hn u ⟨hu, hu'⟩
      change u < 6 at hu
      revert hu'
      rcases hn with rfl | rfl <;> interval_cases u <;> decide
    interval_cases i <;> simp [rootExplicitOps] at h1 <;> subst h1 <;>
      exact ⟨key _ (by simp), fun s hs => absurd hs root_added⟩
  subReads := by
    intro a nm b h
    obtain ⟨i, hi, rfl, h1, _⟩ := split_cases h
    change i < 6 at hi
    interval_cases i <;> simp [rootExplicitOps] at h1

theorem root_returned {u : Ref} (h : Returned progGEnv rootExplicitOps u) : 1 ≤ u ∧ u ≤ 5 := by
  obtain ⟨a, op, b, e, h⟩ := h
  obtain ⟨i, hi, rfl, h1, _⟩ := split_cases e
  change i < 6 at hi
  interval_cases i <;> simp [rootExplicitOps] at h1 <;> subst h1
  · rw [show u = 1 from h]; decide
  · rw [show u = 2 from h]; decide
  · rw [show u = 3 from h]; decide
  · rw [show u = 4 from h]; decide
  · rw [show u = 5 from h]; decide
  · exact h.elim

theorem root_returned' {u : Ref} (h1 : 1 ≤ u) (h2 : u ≤ 5) : Returned progGEnv rootExplicitOps u := by
  interval_cases u
  · exact ⟨[], .declareInput "x", _, rfl, by show _ = _; decide⟩
  · exact ⟨rootExplicitOps.take 1, .declareInput "y", _, rfl, by show _ = _; decide⟩
  · exact ⟨rootExplicitOps.take 2, .combine [2], _, rfl, by show _ = _; decide⟩
  · exact ⟨rootExplicitOps.take 3, .combine [3, 1], _, rfl, by show _ = _; decide⟩
  · exact ⟨rootExplicitOps.take 4, .declareInput "y", _, rfl, by show _ = _; decide⟩

def rootShape (u : Ref) : List Nat := if u = 0 then [] else [1]

deriving instance DecidableEq for ImplInterface

def rootIface : ImplInterface := ⟨["y"], ["x"], [("y", "x"), ("y", "y")]⟩

theorem root_fine : FineFrom progGEnv (World.init progGEnv) rootProg :=
  ⟨trivial, trivial, trivial, trivial, ⟨by decide, by decide⟩, trivial⟩

theorem root_plain : Flat rootProg := by
  intro op h
  rw [root_ops] at h
  simp only [rootOps, List.mem_cons, List.not_mem_nil, or_false] at h
  rcases h with rfl | rfl | rfl | rfl | rfl <;> simp

theorem root_noItem {a b : List Stmt} {st : Stmt} (e : rootExplicit = a ++ st :: b) :
    (∀ x key, st ≠ .getItem x key) ∧ ∀ out key e, st ≠ .setItem out key e := by
  obtain ⟨i, hi, rfl, h1, _⟩ := split_prog e
  change i < 6 at hi
  interval_cases i <;> simp [rootExplicit] at h1 <;> subst h1 <;> simp

theorem root_compiled {m : Meaning Unit} : ∃ l,
    ImplCompiled progGEnv demoEnv m rootProg l [3, 4] rootIface (fun _ => 1) ∧
    ∀ u, Returned progGEnv rootExplicitOps u → l.shape u = [1] := by
  obtain ⟨l, h1, h2⟩ := c69_compiles (genv := progGEnv) (env := demoEnv) (m := m) (prog := rootExplicit) (shape := rootShape)
    root_programOk.toProgramCore rfl (by
      intro a st b e
      obtain ⟨i, hi, rfl, h1, _⟩ := split_prog e
      change i < 6 at hi
      interval_cases i <;> simp [rootExplicit] at h1 <;> subst h1 <;> trivial) (by
      intro a st b e
      obtain ⟨i, hi, rfl, h1, _⟩ := split_prog e
      change i < 6 at hi
      interval_cases i <;> simp [rootExplicit] at h1 <;> subst h1
      · show rootShape _ = _; decide
      · show rootShape _ = _; decide
      · exact ⟨trivial, by decide⟩
      · exact ⟨⟨by decide, by decide⟩, by decide⟩
      · show rootShape _ = _; decide
      · trivial)
  have h2' : ∀ u, Returned progGEnv rootExplicitOps u → l.shape u = [1] := by
    intro u hu
    rw [h2 u hu]
    obtain ⟨h3, h4⟩ := root_returned hu
    interval_cases u <;> decide
  refine ⟨l, ⟨root_group, root_fine, ?_, by decide, by decide, root_programOk, fun u hu => ?_, ?_,
    fun a x key b e => absurd rfl ((root_noItem e).1 x key),
    fun a out key e b he => absurd rfl ((root_noItem he).2 out key e), fun a c b e => ?_, ?_, fun o _ s hs => absurd hs root_added⟩, h2'⟩
  · exact (impl_sims (m := m) root_group root_fine root_programOk).2.2.symm.trans h1
  · rw [h2' u hu]; rfl
  · intro a out e b he
    obtain ⟨i, hi, rfl, h1, _⟩ := split_cases he
    change i < 6 at hi
    interval_cases i <;> simp [explicitOf, rootProg, explicitFrom, Stmt.op] at h1
  · obtain ⟨i, hi, rfl, he, _⟩ := split_prog (prog := rootExplicit) e
    change i < 6 at hi
    interval_cases i <;> simp [rootExplicit] at he <;> subst he <;> trivial
  · intro r hr d hd hk
    rw [root_residuals] at hr
    change d < 6 at hd
    obtain rfl := List.mem_singleton.1 hr
    revert hk
    interval_cases d <;> decide

theorem root_defined {l : Layout} (val : Ref → Nat → ℝ) :
    RunsDefined progGEnv (explicitOf progGEnv rootProg) l.shape [3, 4] val := by
  intro a c b e _
  obtain ⟨i, hi, rfl, he, _⟩ := split_prog (prog := rootExplicit) e
  change i < 6 at hi
  interval_cases i <;> simp [rootExplicit] at he <;> subst he
  · intro idx _
    exact Or.inr ⟨⟨2, by norm_num⟩, Or.inr (by norm_num)⟩
  · trivial

/-- What the component computes: `y ** 2 - x`, whatever happened before. -/
theorem root_residual {m : Meaning Unit} {l : Layout}
    (h : ImplCompiled progGEnv demoEnv m rootProg l [3, 4] rootIface fun _ => 1)
    (hl : ∀ u, Returned progGEnv rootExplicitOps u → l.shape u = [1]) (s : Store (FlatArr fun _ => 1))
    (cs : List (ImplCall (FlatArr fun _ => 1))) (x : Store (FlatArr fun _ => 1)) :
    let p := implProb progGEnv rootProg l [3, 4] rootIface fun _ => 1
    p.after (p.history s cs) (.residuals x) "____" 0 = x "y" 0 ^ 2 - x "x" 0 := by
  intro p
  obtain ⟨-, h1, h2, -⟩ := c75_residuals h root_plain s cs x (root_defined _)
  set S := p.after (p.history s cs) (.residuals x) with hS
  have r1 : Returned progGEnv rootExplicitOps 1 := ⟨[], .declareInput "x", _, rfl, by show _ = _; decide⟩
  have r2 : Returned progGEnv rootExplicitOps 2 := ⟨rootExplicitOps.take 1, .declareInput "y", _, rfl, by show _ = _; decide⟩
  have r3 : Returned progGEnv rootExplicitOps 3 := ⟨rootExplicitOps.take 2, .combine [2], _, rfl, by show _ = _; decide⟩
  have r4 : Returned progGEnv rootExplicitOps 4 := ⟨rootExplicitOps.take 3, .combine [3, 1], _, rfl, by show _ = _; decide⟩
  have hheld : ∀ u n, l.shape u = [1] → (final progGEnv (ops rootExplicit)).name u = n →
      held l (final progGEnv (ops rootExplicit)) S u 0 = S n 0 := by
    rintro u _ hu rfl
    unfold held
    rw [dif_pos ⟨by simp, by rw [hu]; simp [prodShape]⟩]
    rfl
  have v1 := hheld 1 "x" (hl 1 r1) (by decide)
  have v2 := hheld 2 "y" (hl 2 r2) (by decide)
  have v3 := hheld 3 "___" (hl 3 r3) (by decide)
  have v4 := hheld 4 "____" (hl 4 r4) (by decide)
  have hin : InBounds [1] [0] := by simp [InBounds]
  have e3 := (h2.expr (rootExplicit.take 2) (.pow 2 2) _ rfl (by decide)).2 [0]
    (by simpa [Term.outShape, hl 2 r2] using hin)
  have e4 := (h2.expr (rootExplicit.take 3) (.sub (.ref 3) (.ref 1)) _ rfl (by decide)).2 [0]
    (by simpa [Term.outShape, Arg.shape2, hl 3 r3] using hin)
  rw [show (final progGEnv (ops (rootExplicit.take 2))).next = 3 by decide] at e3
  rw [show (final progGEnv (ops (rootExplicit.take 3))).next = 4 by decide] at e4
  simp only [Term.outShape, Term.entry, Arg.shape2, Arg.entry, entryAt, hl 1 r1, hl 2 r2, hl 3 r3, ravel] at e3 e4
  simp [root_explicit, v1, v2, v3, v4] at e3 e4
  rw [e4, e3, h1 "y" (by decide), h1 "x" (by decide)]

/-- Values that satisfy the program, for `x = c` and `y = z`. -/
noncomputable def rootVal (c : ℝ) (z : Arr) (u : Ref) (i : Nat) : ℝ :=
  if i = 0 then
    if u = 1 then c else if u = 3 then z 0 ^ 2 else if u = 4 then z 0 ^ 2 - c else if u = 2 ∨ u = 5 then z 0 else 0
  else 0

theorem root_solves {l : Layout} (hl : ∀ u, Returned progGEnv rootExplicitOps u → l.shape u = [1]) (c : ℝ) (z : Arr) :
    Solves progGEnv (explicitOf progGEnv rootProg) l.shape [3, 4] (rootVal c z) where
  expr := by
    have r1 : Returned progGEnv rootExplicitOps 1 := ⟨[], .declareInput "x", _, rfl, by show _ = _; decide⟩
    have r2 : Returned progGEnv rootExplicitOps 2 := ⟨rootExplicitOps.take 1, .declareInput "y", _, rfl, by show _ = _; decide⟩
    have r3 : Returned progGEnv rootExplicitOps 3 := ⟨rootExplicitOps.take 2, .combine [2], _, rfl, by show _ = _; decide⟩
    intro a c' b e hn
    refine ⟨root_defined _ a c' b e hn, ?_⟩
    obtain ⟨i, hi, rfl, he, _⟩ := split_prog (prog := rootExplicit) e
    change i < 6 at hi
    interval_cases i <;> simp [rootExplicit] at he <;> subst he
    · rw [show (final progGEnv (ops (rootExplicit.take 2))).next = 3 by decide]
      intro idx hidx
      simp only [Term.outShape, Term.entry, entryAt, hl 2 r2] at hidx ⊢
      obtain ⟨k, rfl⟩ := List.length_eq_one_iff.1 (List.Forall₂.length_eq hidx)
      obtain rfl : k = 0 := by simpa [InBounds] using hidx
      simp [ravel, rootVal]
    · rw [show (final progGEnv (ops (rootExplicit.take 3))).next = 4 by decide]
      intro idx hidx
      simp only [Term.outShape, Term.entry, Arg.shape2, Arg.entry, entryAt, hl 1 r1, hl 3 r3] at hidx ⊢
      obtain ⟨k, rfl⟩ := List.length_eq_one_iff.1 (List.Forall₂.length_eq hidx)
      obtain rfl : k = 0 := by simpa [InBounds] using hidx
      simp [ravel, rootVal]
  item := fun a x key b e => absurd rfl ((root_noItem e).1 x key)
  define := by
    intro a out e b h
    obtain ⟨i, hi, rfl, he, _⟩ := split_prog (prog := rootExplicit) h
    change i < 6 at hi
    interval_cases i <;> simp [rootExplicit] at he
  assign := fun a out key e b he => absurd rfl ((root_noItem he).2 out key e)
  rest := by
    rintro out ⟨a, key, e, b, he⟩
    exact absurd rfl ((root_noItem he).2 out key e)
  zero := by
    intro u i h
    by_cases hi : i = 0
    · subst hi
      have : ∀ n, 1 ≤ n → n ≤ 5 → u ≠ n := by
        rintro n h1 h2 rfl
        rw [hl u (root_returned' h1 h2)] at h
        simp [prodShape] at h
      simp [rootVal, this]
    · simp [rootVal, hi]

theorem root_starts (c : ℝ) (x : Store (FlatArr fun _ => 1)) (hx : x "x" 0 = c) (z : Arr) :
    Starts progGEnv (explicitOf progGEnv rootProg) (Function.update x "y" fun i => z i) (rootVal c z) := by
  intro u hu hk i
  obtain rfl : i = 0 := Subsingleton.elim _ _
  obtain ⟨h1, h2⟩ := root_returned hu
  have key : ∀ n, (final progGEnv (ops rootExplicit)).name u = n →
      (Function.update x "y" fun i => z i) n 0 = rootVal c z u 0 →
      (Function.update x "y" fun i => z i) ((final progGEnv (ops rootExplicit)).name u) 0 = rootVal c z u 0 := by
    rintro _ rfl h; exact h
  interval_cases u
  · exact key "x" (by decide) (by simp [Store.set, Function.update, rootVal, hx])
  · exact key "y" (by decide) (by simp [Store.set, Function.update, rootVal])
  · exact absurd hk (by decide)
  · exact absurd hk (by decide)
  · exact key "y" (by decide) (by simp [Store.set, Function.update, rootVal])

/-- The component, with the brackets 0 and `b`, computes the square root of `x`, for `0 ≤ x ≤ b ** 2`. -/
example {m : Meaning Unit} (s x : Store (FlatArr fun _ => 1)) (b : ℝ) (hb : 0 ≤ b) (h0 : 0 ≤ x "x" 0)
    (hx : x "x" 0 ≤ b ^ 2) : ∃ l, ImplCompiled progGEnv demoEnv m rootProg l [3, 4] rootIface (fun _ => 1) ∧
    ∀ f : Arr → Arr, (∀ z, ∃ cs, ∀ i, f z i = if hi : i < 1 then
      (implProb progGEnv rootProg l [3, 4] rootIface fun _ => 1).after
        ((implProb progGEnv rootProg l [3, 4] rootIface fun _ => 1).history s cs)
        (.trial x "y" fun i => z i) "____" ⟨i, hi⟩ else 0) →
      |bisect f 100 (fun _ => 0) (fun _ => b) 0 - √(x "x" 0)| ≤ b / 2 ^ 101 := by
  obtain ⟨l, h, hl⟩ := root_compiled (m := m)
  refine ⟨l, h, fun f hf => ?_⟩
  obtain ⟨z, hz, hd⟩ := c75_solved_partial h root_plain s x (out := "y") (by decide) (r := 4) (by rw [root_residuals]; simp)
    (fun _ => 0) (fun _ => b) (val := rootVal (x "x" 0)) (fun z _ => root_solves hl _ z) (fun z _ => root_starts _ x rfl z)
    (ρ := fun i y => if i = 0 then y ^ 2 - x "x" 0 else 0) (N := 1) le_rfl
    (fun z _ i _ => by by_cases hi : i = 0 <;> simp [rootVal, hi]) f (fun z _ => hf z)
    (by rintro i -; split
        · nlinarith
        · simp)
    (by rintro i -; split <;> fun_prop)
  have h2 := hz 0
  obtain ⟨h1, h3⟩ := hd 0 Nat.one_pos
  rw [Set.uIcc_of_le hb] at h2
  rw [sub_zero, abs_of_nonneg hb] at h3
  have h4 : z 0 ^ 2 = x "x" 0 := by
    simp [rootVal] at h1
    linarith
  rwa [← h4, Real.sqrt_sq h2.1]

end OM
