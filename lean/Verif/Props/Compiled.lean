import Verif.Lemmas.Layout
import Verif.Props.TermsAccepted
import Verif.Props.TermsIndex
import Verif.Props.ProgramTotals

/-!
# Whole programs compute what they say (C69)

The calls of a program give equations between arrays: an expression is the result of its call, an output is the
expression that defines it. Arrays that solve these equations are what OpenMDAO computes when it runs the components
of the program in the order of `setup`, no component raises an exception, and the total derivatives that OpenMDAO
assembles from the partials of the components are the derivatives of these arrays.
-/

namespace OM
open Spec

/-- No subsystems. -/
def noSub : Meaning Unit :=
  ⟨fun _ => (), fun _ _ => (), fun _ _ => (), fun _ _ => (), fun _ => [], fun _ => [], fun _ _ _ => ()⟩

/-- A program that is accepted, with or without feedback: its shapes and components `l`, and some of its components
`comps`. -/
structure CompiledOn (genv : GEnv) (env : SetupEnv) (m : Meaning Unit) (prog : List Stmt) (l : Layout) (comps : List Ref)
    (size : String → Nat) : Prop where
  ok : ProgramCore genv env m (ops prog)
  compile : compileProgram genv prog = .ok l
  arranged : Arranged genv (ops prog) comps
  /-- the size of a variable is that of its shape -/
  size : ∀ u, Returned genv (ops prog) u → size ((final genv (ops prog)).name u) = prodShape (l.shape u)
  /-- an expression assigned to a part of an output is not renamed afterwards (C55) -/
  first : RegisteredFirst (ops prog)
  /-- parts of computed expressions are not read, unless these have one element (C19) -/
  items : ∀ a x key b, prog = a ++ .getItem x key :: b →
    (final genv (ops prog)).kind x ≠ .expr ∨ l.shape x = [1]
  /-- parts are not assigned under negative positions (C18) -/
  keys : ∀ a out key e b, prog = a ++ .setItem out key e :: b → ∀ k, key = .one (.int k) → 0 ≤ k
  /-- two inputs declared under one name are not operands of one einsum -/
  apart : ∀ a c b, prog = a ++ .expr c :: b → c.Apart (final genv (ops prog)).name

/-- A program that is accepted, with or without feedback; `comps` are the components added by `setup`. -/
structure CompiledCore (genv : GEnv) (env : SetupEnv) (m : Meaning Unit) (prog : List Stmt) (l : Layout) (comps : List Ref)
    (size : String → Nat) : Prop extends CompiledOn genv env m prog l comps size where
  setup : setupGroup env (final genv (ops prog)) = .ok comps

/-- The components added by `setup` can be run in its order. -/
theorem CompiledCore.of {genv : GEnv} {env : SetupEnv} {m : Meaning Unit} {prog : List Stmt} {l : Layout}
    {comps : List Ref} {size : String → Nat} (ok : ProgramCore genv env m (ops prog))
    (compile : compileProgram genv prog = .ok l) (setup : setupGroup env (final genv (ops prog)) = .ok comps)
    (size_eq : ∀ u, Returned genv (ops prog) u → size ((final genv (ops prog)).name u) = prodShape (l.shape u))
    (first : RegisteredFirst (ops prog))
    (items : ∀ a x key b, prog = a ++ .getItem x key :: b →
      (final genv (ops prog)).kind x ≠ .expr ∨ l.shape x = [1])
    (keys : ∀ a out key e b, prog = a ++ .setItem out key e :: b → ∀ k, key = .one (.int k) → 0 ≤ k)
    (apart : ∀ a c b, prog = a ++ .expr c :: b → c.Apart (final genv (ops prog)).name) :
    CompiledCore genv env m prog l comps size :=
  ⟨⟨ok, compile, arranged_setup ok.group setup, size_eq, first, items, keys, apart⟩, setup⟩

/-- A program that is accepted, without feedback, and some of its components in an order in which they can be run. -/
structure CompiledPart (genv : GEnv) (env : SetupEnv) (m : Meaning Unit) (prog : List Stmt) (l : Layout) (comps : List Ref)
    (size : String → Nat) : Prop extends CompiledOn genv env m prog l comps size where
  program : ProgramOk genv env m (ops prog)
  order : InOrder genv m (ops prog) comps

/-- A program that is accepted, without feedback; `comps` are the components added by `setup`. -/
structure Compiled (genv : GEnv) (env : SetupEnv) (m : Meaning Unit) (prog : List Stmt) (l : Layout) (comps : List Ref)
    (size : String → Nat) : Prop extends CompiledCore genv env m prog l comps size where
  program : ProgramOk genv env m (ops prog)

theorem Compiled.part {genv : GEnv} {env : SetupEnv} {m : Meaning Unit} {prog : List Stmt} {l : Layout} {comps : List Ref}
    {size : String → Nat} (h : Compiled genv env m prog l comps size) : CompiledPart genv env m prog l comps size :=
  ⟨h.toCompiledOn, h.program, inOrder_setup h.program h.setup⟩

/-- Parts of the output are assigned. -/
def AssignedTo (prog : List Stmt) (out : Ref) : Prop := ∃ a key e b, prog = a ++ .setItem out key e :: b

/-- The arrays `val` satisfy the equations of the program, and all calls that are run are defined there. -/
structure Solves (genv : GEnv) (prog : List Stmt) (shape : Ref → List Nat) (comps : List Ref) (val : Ref → Nat → ℝ) :
    Prop where
  expr : ∀ a c b, prog = a ++ .expr c :: b → (final genv (ops a)).next ∈ comps →
    c.Defined shape val ∧ ∀ idx, InBounds (c.outShape shape) idx →
      val (final genv (ops a)).next (ravel (c.outShape shape) idx) = c.entry shape val idx
  /-- a part of `x` has the elements that the key selects -/
  item : ∀ a x key b, prog = a ++ .getItem x key :: b → ∀ u d, u + 1 = (final genv (ops a ++ [.getItem x])).next →
    ItemOf genv (ops prog) u d → d ∈ comps → ∀ sels, KeySelects (shape x) key.items sels → ∀ j, InBounds (shape u) j →
      val u (ravel (shape u) j) = val x (ravel (shape x) (List.zipWith (fun l i => l.getD i 0) sels j))
  define : ∀ a out e b, prog = a ++ .define out e :: b → out ∈ comps →
    (step genv (final genv (ops a)) (.define out e)).2 = none → ¬ AssignedTo prog out → val out = val e
  /-- a part of an output has the elements of the expression assigned to it -/
  assign : ∀ a out key e b, prog = a ++ .setItem out key e :: b → out ∈ comps → ∀ pos, Touched (shape out) key pos →
    ∀ (k : Nat) (hk : k < pos.length), val out pos[k] = val e k
  /-- elements of such an output that are not assigned are 1 -/
  rest : ∀ out, AssignedTo prog out → out ∈ comps → ∀ i < prodShape (shape out),
    (∀ a key e b, prog = a ++ .setItem out key e :: b → ∀ pos, Touched (shape out) key pos → i ∉ pos) → val out i = 1
  /-- nothing beyond the size -/
  zero : ∀ u i, prodShape (shape u) ≤ i → val u i = 0

/-- No call that is run is evaluated outside its domain. -/
def RunsDefined (genv : GEnv) (prog : List Stmt) (shape : Ref → List Nat) (comps : List Ref) (val : Ref → Nat → ℝ) :
    Prop :=
  ∀ a c b, prog = a ++ .expr c :: b → (final genv (ops a)).next ∈ comps → c.Defined shape val

/-- Inputs and independent variables start with these arrays. -/
def Starts (genv : GEnv) (prog : List Stmt) {size : String → Nat} (init : Store (FlatArr size)) (val : Ref → Nat → ℝ) :
    Prop :=
  ∀ u, Returned genv (ops prog) u →
    ((final genv (ops prog)).kind u = .input ∨ (final genv (ops prog)).kind u = .indep) →
    ∀ i : Fin (size ((final genv (ops prog)).name u)), init ((final genv (ops prog)).name u) i = val u i

/-- The variables that have a value: inputs, and what the components added by `setup` compute. -/
def Valued (genv : GEnv) (prog : List Stmt) (comps : List Ref) (u : Ref) : Prop :=
  Returned genv (ops prog) u ∧
    ((final genv (ops prog)).kind u = .input ∨ ∃ d ∈ comps, Writes genv (ops prog) d u)

section
variable {genv : GEnv} {env : SetupEnv} {m : Meaning Unit} {prog : List Stmt} {l : Layout} {comps : List Ref} {size : String → Nat}

local notation "W" => final genv (ops prog)
local notation "K" => wires genv (ops prog)

/-- The component of object `u`, without exceptions. -/
noncomputable abbrev Layout.comp (l : Layout) (w : World) (k : Wires) (size : String → Nat) (u : Ref) :
    Comp (FlatArr size) := outsComp size (l.outsOf w k u)

theorem oldNames (h : CompiledOn genv env m prog l comps size) : OldNamesFree genv m (ops prog) :=
  fun _ _ _ _ he => Or.inl (registeredFirst_names h.ok.group.valid h.first he).symm

theorem compile_eq (h : CompiledOn genv env m prog l comps size) :
    Layout.run genv (W).name (World.init genv) Layout.init prog = .ok l := h.compile

theorem setItem_ops {a b : List Op} {out e : Ref} {ch : Option PyErr} (h : ops prog = a ++ .setItem out e ch :: b) :
    ∃ pa key pb, prog = pa ++ .setItem out key e :: pb ∧ ops pa = a ∧ ch = none := by
  obtain ⟨pa, st, pb, hp, ha, hst, hb⟩ := ops_split h
  cases st <;> cases hst
  exact ⟨pa, _, pb, hp, ha, rfl⟩

theorem getItem_ops {a b : List Op} {x : Ref} (h : ops prog = a ++ .getItem x :: b) :
    ∃ pa key pb, prog = pa ++ .getItem x key :: pb ∧ ops pa = a := by
  obtain ⟨pa, st, pb, hp, ha, hst, hb⟩ := ops_split h
  cases st <;> cases hst
  exact ⟨pa, _, pb, hp, ha⟩

/-- What is used was returned. -/
theorem used_returned (h : CompiledOn genv env m prog l comps size) {a b : List Op} {op : Op} {x : Ref}
    (e : ops prog = a ++ op :: b) (hx : x ∈ op.uses) : Returned genv (ops prog) x := by
  have := (h.ok.uses a op b e x hx).mono (b := op :: b)
  rwa [← e] at this

/-- Names of expressions assigned to parts. -/
theorem assigned_name (h : CompiledOn genv env m prog l comps size) {a b : List Stmt} {out e : Ref} {key : Key}
    (hp : prog = a ++ .setItem out key e :: b) : (final genv (ops a)).name e = (W).name e := by
  have e1 : ops prog = ops a ++ .setItem out e none :: ops b := by rw [hp, ops_append]; rfl
  exact (registeredFirst_names h.ok.group.valid h.first e1).symm

/-- Outputs with assigned parts. -/
theorem assignedTo_iff (h : CompiledOn genv env m prog l comps size) (out : Ref) :
    AssignedTo prog out ↔ (W).indexed out = true := by
  have hv := h.ok.group.valid
  constructor
  · rintro ⟨a, key, e, b, hp⟩
    have hk := ((layout_tgt hv (compile_eq h) out).2 a key e b hp).1
    exact (indexed_iff (ops prog) out).2 ⟨ops a, e, ops b, by rw [hp, ops_append]; rfl, hk⟩
  · intro hi
    obtain ⟨a, e, b, h1, -⟩ := (indexed_iff (ops prog) out).1 hi
    obtain ⟨pa, key, pb, hp, -⟩ := setItem_ops h1
    exact ⟨pa, key, e, pb, hp⟩

theorem assignedTo_kind (h : CompiledOn genv env m prog l comps size) {out : Ref} (ho : AssignedTo prog out) :
    (W).kind out = .explicitOut := by
  have hv := h.ok.group.valid
  obtain ⟨a, key, e, b, hp⟩ := ho
  have hk := ((layout_tgt hv (compile_eq h) out).2 a key e b hp).1
  have e1 : ops prog = ops a ++ .setItem out e none :: ops b := by rw [hp, ops_append]; rfl
  have hv' := hv
  rw [e1] at hv' ⊢
  rw [kind_at hv' ((validFrom_append genv (ops a) _ _).1 hv').2.1.1.2]
  exact hk

/-- The assignments to parts of an output. -/
theorem tgt_mem (h : CompiledOn genv env m prog l comps size) {out : Ref} {x : Assign} :
    x ∈ l.tgt out ↔ ∃ a key e b, prog = a ++ .setItem out key e :: b ∧ x = (key, (W).name e, l.shape e) := by
  obtain ⟨t1, t2⟩ := layout_tgt h.ok.group.valid (compile_eq h) out
  constructor
  · intro hx
    obtain ⟨pre, post, he⟩ := List.append_of_mem hx
    obtain ⟨-, a, key, e, b, hp, rfl, -⟩ := t1 pre x post he
    exact ⟨a, key, e, b, hp, by rw [assigned_name h hp]⟩
  · rintro ⟨a, key, e, b, hp, rfl⟩
    obtain ⟨-, pre, post, he, -⟩ := t2 a key e b hp
    rw [he, assigned_name h hp]
    simp

/-- The expressions assigned to parts of an output. -/
abbrev partsTo (genv : GEnv) (prog : List Stmt) (out : Ref) : List Ref := (assigned genv (ops prog) out).map Prod.fst

theorem mem_partsTo {out e : Ref} :
    e ∈ partsTo genv prog out ↔ ∃ a key b, prog = a ++ .setItem out key e :: b := by
  constructor
  · intro he
    obtain ⟨p, hp, rfl⟩ := List.mem_map.1 he
    obtain ⟨a, b, h1, -⟩ := mem_assignedFrom (ops prog) hp
    obtain ⟨pa, key, pb, h2, -⟩ := setItem_ops h1
    exact ⟨pa, key, pb, h2⟩
  · rintro ⟨a, key, b, rfl⟩
    refine List.mem_map.2 ⟨(e, (final genv (ops a)).name e), ?_, rfl⟩
    show _ ∈ assignedFrom genv out _ _
    rw [ops_append, assignedFrom_append]
    refine List.mem_append.2 (Or.inr ?_)
    show _ ∈ assignedFrom genv out _ (.setItem out e none :: ops b)
    simp only [assignedFrom, if_true]
    simp

theorem tgt_accepted (h : CompiledOn genv env m prog l comps size) (out : Ref) :
    ∀ pre a post, l.tgt out = pre ++ a :: post → AcceptedAt (l.shape out) pre a :=
  fun pre a post he => ((layout_tgt h.ok.group.valid (compile_eq h) out).1 pre a post he).1

theorem tgt_nonneg (h : CompiledOn genv env m prog l comps size) (out : Ref) :
    ∀ a ∈ l.tgt out, ∀ k, a.1 = .one (.int k) → 0 ≤ k := by
  intro x hx k hk
  obtain ⟨a, key, e, b, hp, rfl⟩ := (tgt_mem h).1 hx
  exact h.keys a out key e b hp k hk

/-- The component of an output with assigned parts. -/
theorem indexed_wired (h : CompiledOn genv env m prog l comps size) (out : Ref) :
    (builtIndexed (l.shape out) (l.tgt out)).Wired (W).name l.shape (partsTo genv prog out) := by
  obtain ⟨h1, h2⟩ := builtIndexed_ins (tgt_accepted h out)
  refine ⟨h1, fun p hp => ?_, fun e he => ?_⟩
  · obtain ⟨x, hx, rfl⟩ := (h2 p).1 hp
    obtain ⟨a, key, e, b, hp2, rfl⟩ := (tgt_mem h).1 hx
    exact ⟨e, mem_partsTo.2 ⟨a, key, b, hp2⟩, rfl⟩
  · obtain ⟨a, key, b, hp⟩ := mem_partsTo.1 he
    exact List.mem_map.2 ⟨((W).name e, prodShape (l.shape e)),
      (h2 _).2 ⟨_, (tgt_mem h).2 ⟨a, key, e, b, hp, rfl⟩, rfl⟩, rfl⟩

theorem built_kind (h : CompiledOn genv env m prog l comps size) {u : Ref} {B : Built} (hB : l.built u = some B) :
    ∃ c : Term, (W).kind u = .expr ∧ (K).args u = c.refs ∧ c.build (W).name l.shape = .ok B := by
  obtain ⟨a, c, b, rfl, rfl⟩ := layout_built (compile_eq h) hB
  have hv := h.ok.group.valid
  obtain ⟨B', h1, h2, -⟩ := layout_expr hv (compile_eq h)
  rw [hB] at h2
  cases h2
  refine ⟨c, ?_, ?_, h1⟩
  · rw [ops_append] at hv ⊢
    obtain ⟨_, h3, h4⟩ := made_kind (op := Stmt.op (.expr c)) hv (u := (final genv (ops a)).next) rfl
    exact h3.trans h4
  · rw [ops_append] at hv ⊢
    exact wires_args hv

theorem compiled_realises (h : CompiledOn genv env m prog l comps size) :
    Realises genv m (ops prog) (l.comp W K size) := by
  have hv := h.ok.group.valid
  intro u
  unfold Layout.comp Layout.outsOf
  cases hk : (W).kind u with
  | expr =>
    simp only
    cases hB : l.built u with
    | none => simp [outsComp, insOf]
    | some B =>
      obtain ⟨c, _, h2, h3⟩ := built_kind h hB
      rw [compOf_expr hk, h2]
      refine ⟨?_, by simp [outsComp]⟩
      intro n hn
      obtain ⟨p, hp, rfl⟩ := List.mem_map.1 hn
      obtain ⟨v, hv, rfl⟩ := (c69_term (W).name l.shape (fun _ _ => 0) (fun _ _ => 0) c B h3).1.ins p hp
      exact List.mem_map.2 ⟨v, hv, rfl⟩
  | explicitOut =>
    by_cases hi : (W).indexed u = true
    · simp only [hi, if_true]
      rw [compOf_indexed hk hi]
      refine ⟨?_, by simp [outsComp]⟩
      intro n hn
      show n ∈ (K).keys u
      obtain ⟨p, hp, rfl⟩ := List.mem_map.1 hn
      obtain ⟨e, he, rfl⟩ := (indexed_wired h u).ins p hp
      obtain ⟨a, key, b, hp'⟩ := mem_partsTo.1 he
      rw [wires_keys hv hk]
      refine List.mem_map.2 ⟨(e, (final genv (ops a)).name e), ?_, assigned_name h hp'⟩
      have e1 : ops prog = ops a ++ .setItem u e none :: ops b := by rw [hp', ops_append]; rfl
      rw [e1]
      show _ ∈ assignedFrom genv u _ _
      rw [assignedFrom_append]
      refine List.mem_append.2 (Or.inr ?_)
      simp only [assignedFrom, if_true]
      simp
    · have hi' : (W).indexed u = false := by simpa using hi
      simp only [hi']
      rw [compOf_defined hk hi']
      simp [outsComp, insOf, builtPass, PassThrough.ins]
  | decomp =>
    simp only
    rw [compOf_decomp hk]
    refine ⟨?_, ?_⟩
    · intro n hn
      show n ∈ [(W).name ((K).whole u)]
      cases hp : (K).parts u with
      | nil => rw [hp] at hn; simp [outsComp, insOf] at hn
      | cons o os =>
        rw [hp] at hn
        simpa [outsComp, insOf, builtItem] using hn
    · intro n hn
      show n ∈ ((K).parts u).map (W).name
      simpa [outsComp] using hn
  | _ => simp [outsComp, insOf]

/-- An expression comes from a call of an operator or function. -/
theorem expr_from {prog : List Stmt} (hv : ValidFrom genv (World.init genv) (ops prog)) {u : Ref} (h0 : 0 < u)
    (hlt : u < (final genv (ops prog)).next) (hk : (final genv (ops prog)).kind u = .expr) :
    ∃ a c b, prog = a ++ .expr c :: b ∧ u = (final genv (ops a)).next := by
  induction prog using List.reverseRecOn with
  | nil =>
    have : u < 1 := hlt
    omega
  | append_singleton prog st ih =>
    rw [ops_append] at hv hlt hk
    have hva := (validFrom_append genv (ops prog) _ _).1 hv
    have oka : WorldOk (final genv (ops prog)) := run_ok (ops prog) (worldOk_init genv) hva.1
    by_cases hu : u < (final genv (ops prog)).next
    · have h1 : (final genv (ops prog ++ [st.op])).kind u = (final genv (ops prog)).kind u := kind_at hv hu
      obtain ⟨a, c, b, rfl, h2⟩ := ih hva.1 hu (h1.symm.trans hk)
      exact ⟨a, c, b ++ [st], by simp, h2⟩
    · have hlt' : u < (step genv (final genv (ops prog)) st.op).1.next := by
        have : u < (final genv (ops prog ++ [st.op])).next := hlt
        rwa [final_snoc] at this
      have hk' : (step genv (final genv (ops prog)) st.op).1.kind u = .expr := by
        have : (final genv (ops prog ++ [st.op])).kind u = .expr := hk
        rwa [final_snoc] at this
      have made : st.op.Returns genv (ops prog) (final genv (ops prog)).next → u = (final genv (ops prog)).next →
          ∃ a c b, prog ++ [st] = a ++ .expr c :: b ∧ u = (final genv (ops a)).next := by
        rintro hr rfl
        obtain ⟨_, _, h3⟩ := made_kind hv hr
        have hk2 : (final genv (ops prog ++ [st.op])).kind (final genv (ops prog)).next = .expr := hk
        cases st with
        | expr c => exact ⟨prog, c, [], rfl, rfl⟩
        | declareInput n s => simp only [Stmt.op] at h3 hk2; rw [hk2] at h3; cases h3
        | createIndep n s => simp only [Stmt.op] at h3 hk2; rw [hk2] at h3; cases h3
        | createOutput n s => simp only [Stmt.op] at h3 hk2; rw [hk2] at h3; cases h3
        | getItem x key => simp only [Stmt.op] at h3 hk2; rw [hk2] at h3; cases h3
        | _ => exact hr.elim
      cases st with
      | declareInput n s =>
        refine made rfl ?_
        simp only [Stmt.op, step] at hlt'
        cases hr : (final genv (ops prog)).recent <;> rw [hr] at hlt' <;>
          simp only [World.alloc, World.addDep] at hlt' <;> omega
      | createIndep n s =>
        refine made rfl ?_
        simp only [Stmt.op, step] at hlt'
        rw [World.register_keeps.1] at hlt'
        cases hr : (final genv (ops prog)).recent <;> rw [hr] at hlt' <;>
          simp only [World.alloc, World.addDep] at hlt' <;> omega
      | createOutput n s =>
        refine made rfl ?_
        simp only [Stmt.op, step, World.alloc, World.addDep] at hlt'
        omega
      | expr c =>
        refine made rfl ?_
        obtain ⟨_, h2, _, _⟩ := WorldOk.addDeps (env := genv) c.refs
          (oka.alloc .expr (genv.autoName (final genv (ops prog)).next)) (u := (final genv (ops prog)).next)
          (Nat.lt_succ_self _) (by simp [World.alloc])
          (fun d hd => ⟨(hva.2.1 d hd).1, Nat.lt_succ_of_lt (hva.2.1 d hd).2⟩)
        have h3 : (step genv (final genv (ops prog)) (Stmt.op (.expr c))).1.next = (final genv (ops prog)).next + 1 := h2
        omega
      | setItem out key e =>
        exfalso
        simp only [Stmt.op, step] at hlt'
        split at hlt'
        · exact hu hlt'
        · exact hu hlt'
      | getItem x key =>
        exfalso
        obtain ⟨g1, g2, g3⟩ := getItem_next (genv := genv) (final genv (ops prog)) x
        simp only [Stmt.op] at hlt' hk'
        by_cases hl : u = (step genv (final genv (ops prog)) (.getItem x)).1.next - 1
        · rw [hl, g2] at hk'; cases hk'
        · split at g1
          · obtain rfl : u = (final genv (ops prog)).next := by omega
            rename_i hd
            rw [g3 hd] at hk'; cases hk'
          · omega
      | addSubsystem n =>
        exfalso
        obtain ⟨_, h2, h3, _⟩ := WorldOk.addDeps (env := genv) ((final genv (ops prog)).deps 0)
          (oka.alloc .subsystem n) (u := (final genv (ops prog)).next) (Nat.lt_succ_self _) (by simp [World.alloc])
          (fun d hd => ⟨(oka.range 0 d hd).1, Nat.lt_succ_of_lt (oka.range 0 d hd).2⟩)
        have h4 : (step genv (final genv (ops prog)) (Stmt.op (.addSubsystem n))).1.next =
          (final genv (ops prog)).next + 1 := h2
        obtain rfl : u = (final genv (ops prog)).next := by omega
        have h5 : (step genv (final genv (ops prog)) (Stmt.op (.addSubsystem n))).1.kind (final genv (ops prog)).next =
          .subsystem := (congrFun h3 _).trans (Function.update_self ..)
        rw [h5] at hk'; cases hk'
      | registerOutput n x =>
        exfalso
        have h3 : (step genv (final genv (ops prog)) (Stmt.op (.registerOutput n x))).1.next =
          (final genv (ops prog)).next := World.register_keeps.1
        omega
      | define out e =>
        exfalso
        simp only [Stmt.op, step] at hlt' hk'
        split at hlt'
        · exact hu hlt'
        rename_i c1
        rw [if_neg c1] at hk'
        split at hlt'
        · exact hu hlt'
        rename_i c2
        rw [if_neg c2] at hk'
        split at hlt'
        · exact hu hlt'
        rename_i c3
        rw [if_neg c3] at hk'
        split at hlt'
        all_goals
          rename_i c4
          simp only [c4] at hk'
          simp only [World.alloc, World.addDep] at hlt' hk'
          obtain rfl : u = (final genv (ops prog)).next := by omega
          rw [Function.update_self] at hk'
          cases hk'

/-- The outputs `outs` of the component of object `u`: it reads the variables of the objects `refs`, on which `u` depends,
and the equations of the program give its outputs. -/
structure Computes (genv : GEnv) (prog : List Stmt) (l : Layout) (comps : List Ref) (u : Ref)
    (outs : List (String × Built)) (refs : List Ref) : Prop where
  nonempty : outs ≠ []
  wired : ∀ p ∈ outs, p.2.Wired (final genv (ops prog)).name l.shape refs
  ins : ∀ p ∈ outs, p.2.ins = insOf outs
  needs : ∀ v ∈ refs, Returned genv (ops prog) v ∧ BuiltFrom genv (ops prog) u v
  out : ∀ p ∈ outs, ∃ v, p.1 = (final genv (ops prog)).name v ∧ Returned genv (ops prog) v ∧
    Writes genv (ops prog) u v ∧ (final genv (ops prog)).kind v ≠ .input ∧ (final genv (ops prog)).kind v ≠ .indep ∧
    p.2.shape = l.shape v ∧
    ∀ val, Solves genv prog l.shape comps val → ∀ inp, (∀ v ∈ refs, inp ((final genv (ops prog)).name v) = val v) →
      p.2.Good (l.shape v) (fun idx => val v (ravel (l.shape v) idx)) inp
  /-- it runs, and its partials are exact, wherever the calls of the program are defined -/
  smooth : ∀ p ∈ outs, ∀ val, RunsDefined genv prog l.shape comps val → ∀ inp,
    (∀ v ∈ refs, inp ((final genv (ops prog)).name v) = val v) → ∃ e, p.2.Good p.2.shape e inp
  own : ∀ v, Returned genv (ops prog) v → Writes genv (ops prog) u v → (final genv (ops prog)).name v ∈ outs.map Prod.fst
  inj : ∀ p ∈ outs, ∀ q ∈ outs, p.1 = q.1 → p = q

/-- A component with one output, which is the variable of `u` itself. -/
theorem computes_one {u : Ref} {B : Built} {refs : List Ref} (hr : Returned genv (ops prog) u)
    (hk : (W).kind u = .expr ∨ (W).kind u = .explicitOut)
    (hw : B.Wired (W).name l.shape refs) (hrefs : ∀ v ∈ refs, Returned genv (ops prog) v ∧ BuiltFrom genv (ops prog) u v)
    (hs : B.shape = l.shape u)
    (hg : ∀ val, Solves genv prog l.shape comps val → ∀ inp, (∀ v ∈ refs, inp ((W).name v) = val v) →
      B.Good (l.shape u) (fun idx => val u (ravel (l.shape u) idx)) inp)
    (hm : ∀ val, RunsDefined genv prog l.shape comps val → ∀ inp, (∀ v ∈ refs, inp ((W).name v) = val v) →
      ∃ e, B.Good B.shape e inp)
    (hv : ValidFrom genv (World.init genv) (ops prog)) :
    Computes genv prog l comps u [((W).name u, B)] refs where
  nonempty := by simp
  wired := by simpa using hw
  ins := by simp [insOf]
  needs := hrefs
  out := by
    intro p hp
    obtain rfl := List.mem_singleton.1 hp
    exact ⟨u, rfl, hr, Or.inr ⟨by rcases hk with hk | hk <;> simp [hk], rfl⟩,
      by rcases hk with hk | hk <;> simp [hk], by rcases hk with hk | hk <;> simp [hk], hs, hg⟩
  smooth := by
    intro p hp
    obtain rfl := List.mem_singleton.1 hp
    exact hm
  own := by
    rintro v - (h | ⟨-, rfl⟩)
    · have := (itemOf_kind hv h).2
      rcases hk with hk | hk <;> simp [hk] at this
    · simp
  inj := by simp

theorem made_expr (h : CompiledOn genv env m prog l comps size) {a b : List Stmt} {c : Term}
    (hp : prog = a ++ .expr c :: b) {u : Ref} (hua : u = (final genv (ops a)).next) (hu : u ∈ comps) :
    ∃ B, l.outsOf W K u = [((W).name u, B)] ∧ c.build (W).name l.shape = .ok B ∧ l.shape u = B.shape ∧
      Computes genv prog l comps u [((W).name u, B)] c.refs := by
  have hv := h.ok.group.valid
  have e1 : ops prog = ops a ++ .combine c.refs :: ops b := by rw [hp, ops_append]; rfl
  have hr : Returned genv (ops prog) u := ⟨ops a, _, ops b, e1, hua⟩
  obtain ⟨B, hB, hb, hsh, -⟩ : ∃ B, c.build (W).name l.shape = .ok B ∧ l.built u = some B ∧ l.shape u = B.shape ∧
      l.valShape u = [1] := by
    have h3 := compile_eq h
    generalize (W).name = name at h3
    subst hp hua
    exact layout_expr hv h3
  have hk : (W).kind u = .expr := by
    have hv' := hv
    rw [e1] at hv' ⊢
    obtain ⟨_, h3, h4⟩ := made_kind hv' (u := u) hua
    exact h3.trans h4
  refine ⟨B, ?_, hB, hsh, computes_one hr (Or.inl hk) (c69_term (W).name l.shape (fun _ _ => 0) (fun _ _ => 0) c B hB).1
    (fun v hv' => ⟨used_returned h e1 hv', ⟨_, _, _, e1, hua, hv'⟩⟩) hsh.symm ?_ ?_ hv⟩
  · unfold Layout.outsOf; rw [hk]; simp only [hb]; rfl
  · intro val hs inp hin
    obtain ⟨h3, h4⟩ := hs.expr a c b hp (hua ▸ hu)
    have hg := (c69_term (W).name l.shape val inp c B hB).2 (h.apart a c b hp) h3 hin
    have ho : c.outShape l.shape = l.shape u := by rw [hsh, hg.shape]
    rw [ho, ← hua] at h4
    obtain ⟨r, r1, r2⟩ := hg.value
    rw [ho] at r2
    exact ⟨hsh.symm, ⟨r, r1, fun idx hidx => (r2 idx hidx).trans (h4 idx hidx).symm⟩, hg.partials, hg.exact⟩
  · intro val hd inp hin
    have hg := (c69_term (W).name l.shape val inp c B hB).2 (h.apart a c b hp) (hd a c b hp (hua ▸ hu)) hin
    exact ⟨_, by rw [hg.shape]; exact hg⟩

theorem made_define (h : CompiledOn genv env m prog l comps size) {a b : List Stmt} {u e : Ref}
    (hp : prog = a ++ .define u e :: b) (hu : u ∈ comps) (h2 : (step genv (final genv (ops a)) (.define u e)).2 = none)
    (hk : (W).kind u = .explicitOut) (hi : ¬ AssignedTo prog u) :
    l.outsOf W K u = [((W).name u, builtPass (W).name l.shape u e)] ∧ l.shape u = l.shape e ∧
      Computes genv prog l comps u [((W).name u, builtPass (W).name l.shape u e)] [e] := by
  have hv := h.ok.group.valid
  have e1 : ops prog = ops a ++ .define u e :: ops b := by rw [hp, ops_append]; rfl
  have hbody : (K).body u = e := by
    have := hv
    rw [e1] at this ⊢
    exact wires_body this h2
  have hsh : l.shape u = l.shape e := by
    have h3 := compile_eq h
    generalize (W).name = name at h3
    subst hp
    exact layout_define hv h3 h2
  refine ⟨?_, hsh, computes_one (used_returned h e1 (by simp [Op.uses])) (Or.inr hk)
    (wired1 (W).name l.shape rfl rfl _ _ _) ?_ hsh.symm ?_ ?_ hv⟩
  · have hi' : (W).indexed u = false := by
      rw [assignedTo_iff h] at hi
      simpa using hi
    unfold Layout.outsOf
    rw [hk]
    simp only [hi', hbody]
    rfl
  · intro v hv'
    obtain rfl := List.mem_singleton.1 hv'
    exact ⟨used_returned h e1 (by simp [Op.uses]), ⟨_, _, _, e1, rfl, rfl, h2⟩⟩
  · intro val hs inp hin
    have hval := hs.define a u e b hp hu h2 hi
    have hin' := hin e (by simp)
    obtain ⟨_, _, h5⟩ := c60_define_partial ⟨(W).name u, l.shape u, (W).name e, l.shape e⟩ hsh.symm inp
    refine good_of hsh.symm (fun idx _ => ?_) (by rw [hsh]; exact h5)
    show inp ((W).name e) _ = _
    rw [hin', hval]
  · intro val hd inp hin
    obtain ⟨_, _, h5⟩ := c60_define_partial ⟨(W).name u, l.shape u, (W).name e, l.shape e⟩ hsh.symm inp
    exact ⟨fun idx => inp ((W).name e) (ravel (l.shape e) idx), good_of rfl (fun idx _ => rfl) h5⟩

theorem made_indexed (h : CompiledOn genv env m prog l comps size) {u : Ref} (hi : AssignedTo prog u) (hu : u ∈ comps) :
    l.outsOf W K u = [((W).name u, builtIndexed (l.shape u) (l.tgt u))] ∧
      Computes genv prog l comps u [((W).name u, builtIndexed (l.shape u) (l.tgt u))] (partsTo genv prog u) := by
  have hv := h.ok.group.valid
  have hk := assignedTo_kind h hi
  have hr : Returned genv (ops prog) u := by
    obtain ⟨a, key, e, b, hp⟩ := hi
    exact used_returned (a := ops a) (op := .setItem u e none) (b := ops b) h (by rw [hp, ops_append]; rfl)
      (by simp [Op.uses])
  refine ⟨?_, computes_one hr (Or.inr hk) (indexed_wired h u) ?_ rfl ?_ ?_ hv⟩
  · have hi' := (assignedTo_iff h u).1 hi
    unfold Layout.outsOf
    rw [hk]
    simp only [hi', if_true]
  · intro v hv'
    obtain ⟨a, key, b, hp⟩ := mem_partsTo.1 hv'
    have e1 : ops prog = ops a ++ .setItem u v none :: ops b := by rw [hp, ops_append]; rfl
    exact ⟨used_returned h e1 (by simp [Op.uses]),
      ⟨_, _, _, e1, rfl, rfl, ((layout_tgt hv (compile_eq h) u).2 a key v b hp).1⟩⟩
  · intro val hs inp hin
    refine builtIndexed_good (tgt_accepted h u) (tgt_nonneg h u) (f := val u) ?_ ?_
    · intro x hx pos hpos k hk'
      obtain ⟨a, key, e, b, hp, rfl⟩ := (tgt_mem h).1 hx
      rw [hs.assign a u key e b hp hu pos hpos k hk', hin e (mem_partsTo.2 ⟨a, key, b, hp⟩)]
    · intro i hlt hfree
      refine hs.rest u hi hu i hlt fun a key e b hp pos hpos => ?_
      exact hfree _ ((tgt_mem h).2 ⟨a, key, e, b, hp, rfl⟩) pos hpos
  · intro val hd inp hin
    have hacc := tgt_accepted h u
    obtain ⟨r, r1, r2, r3⟩ := c17_values_partial (noTrace_of_accepted hacc) (tgt_nonneg h u) inp fun _ => (1 : ℝ)
    refine ⟨_, builtIndexed_good hacc (tgt_nonneg h u) (f := r) ?_ ?_⟩
    · intro x hx pos hpos k hk'
      obtain ⟨pre, post, hs⟩ := List.append_of_mem hx
      obtain ⟨pos', p1, -, -, p4⟩ := r2 pre _ post hs (hacc pre _ post hs)
      obtain rfl := touched_unique hpos p1
      exact p4 k hk'
    · intro i hlt hfree
      refine r3 i fun pre x post pos hs _ hpos => hfree x (by rw [hs]; simp) pos hpos

theorem firstItem_mono {a b : List Op} {x d : Ref} (h : FirstItem genv a x d) : FirstItem genv (a ++ b) x d := by
  obtain ⟨a1, a2, rfl, h1, h2⟩ := h
  exact ⟨a1, a2 ++ b, by simp, h1, h2⟩

theorem whole_of (hv : ValidFrom genv (World.init genv) (ops prog)) {a b : List Op} {x d : Ref}
    (e : ops prog = a ++ .getItem x :: b) (h : FirstItem genv (a ++ [.getItem x]) x d) : (K).whole d = x := by
  refine wires_whole hv (((decomp_iff genv (ops prog) x).1 d).2 ?_)
  have := firstItem_mono (b := b) h
  rw [e]
  simpa using this

/-- The part read by `x[key]`. -/
theorem made_item (h : CompiledOn genv env m prog l comps size) {a b : List Stmt} {x : Ref} {key : Key}
    (hp : prog = a ++ .getItem x key :: b) {u d : Ref} (hu : u + 1 = (final genv (ops a ++ [.getItem x])).next)
    (hd : ItemOf genv (ops prog) u d) :
    (K).whole d = x ∧ ((W).name u, builtItem ((W).name x) (l.shape x) (l.shape u) (l.src u)) ∈ l.outsOf W K d ∧
    ∃ history ex, (getItem (getItems (IVar.new (l.shape x) (l.shape x)) history) key).2 = .ok ex ∧
      l.shape u = ex.shape ∧ l.src u = ex.src := by
  have hv := h.ok.group.valid
  have e1 : ops prog = ops a ++ .getItem x :: ops b := by rw [hp, ops_append]; rfl
  have hwh : (K).whole d = x := by
    have hd' : ∃ d', FirstItem genv (ops a ++ [.getItem x]) x d' := by
      cases hn : (final genv (ops a ++ [.getItem x])).decomp x with
      | none => exact absurd (by simp) ((decomp_iff genv (ops a ++ [.getItem x]) x).2.1 hn)
      | some d' => exact ⟨d', ((decomp_iff genv _ x).1 d').1 hn⟩
    obtain ⟨d', hd'⟩ := hd'
    obtain rfl := itemOf_unique hv hd ⟨ops a, x, ops b, e1, hu, hd'⟩
    exact whole_of hv e1 hd'
  refine ⟨hwh, ?_, ?_⟩
  · unfold Layout.outsOf
    rw [(itemOf_kind hv hd).2]
    simp only
    exact List.mem_map.2 ⟨u, (wires_parts (ops prog) d u).2 hd, by rw [hwh]⟩
  · have hrx : Returned genv (ops prog) x := used_returned h e1 (by simp [Op.uses])
    have hvs : l.valShape x = l.shape x := by
      obtain ⟨v1, v2⟩ := layout_valShape hv (compile_eq h) hrx
      by_cases hk : (W).kind x = .expr
      · rw [v2 hk, (h.items a x key b hp).resolve_left (fun hne => hne hk)]
      · exact v1 hk
    have h3 := compile_eq h
    generalize (W).name = name at h3
    subst hp
    obtain ⟨history, ex, h4, h5, h6, -⟩ := layout_item hv h3 hu
    rw [hvs] at h4
    exact ⟨history, ex, h4, h5, h6⟩

theorem made_decomp (h : CompiledOn genv env m prog l comps size) {d : Ref} (hk : (W).kind d = .decomp)
    (hdc : d ∈ comps) : Computes genv prog l comps d (l.outsOf W K d) [(K).whole d] := by
  have hv := h.ok.group.valid
  obtain ⟨x, a1, a2, e, hd, hn⟩ := decomp_from hv hk
  have hf : FirstItem genv (a1 ++ [.getItem x]) x d := ⟨a1, [], rfl, hd, hn⟩
  have hwh : (K).whole d = x := whole_of hv e hf
  have houts : l.outsOf W K d = ((K).parts d).map fun o =>
      ((W).name o, builtItem ((W).name x) (l.shape x) (l.shape o) (l.src o)) := by
    unfold Layout.outsOf
    rw [hk]
    simp only [hwh]
  have hins : insOf (l.outsOf W K d) = [] ∨ insOf (l.outsOf W K d) = [((W).name x, prodShape (l.shape x))] := by
    rw [houts]
    cases (K).parts d with
    | nil => exact Or.inl rfl
    | cons o os => exact Or.inr rfl
  have hone : l.outsOf W K d ≠ [] := by
    have hi : ItemOf genv (ops prog) ((final genv (a1 ++ [.getItem x])).next - 1) d := by
      refine ⟨a1, x, a2, e, ?_, hf⟩
      have h1 := (getItem_next (genv := genv) (final genv a1) x).1
      rw [final_snoc]
      split at h1 <;> omega
    rw [houts]
    intro h0
    rw [List.map_eq_nil_iff] at h0
    have := (wires_parts (ops prog) d _).2 hi
    rw [h0] at this
    cases this
  rw [hwh]
  refine ⟨hone, ?_, ?_, ?_, ?_, ?_, ?_, ?_⟩
  · intro p hp
    rw [houts] at hp
    obtain ⟨o, -, rfl⟩ := List.mem_map.1 hp
    exact wired1 (W).name l.shape rfl rfl _ _ _
  · intro p hp
    have : insOf (l.outsOf W K d) = [((W).name x, prodShape (l.shape x))] := by
      cases hl : l.outsOf W K d with
      | nil => exact absurd hl hone
      | cons q qs =>
        have hq : q ∈ l.outsOf W K d := by rw [hl]; simp
        rw [houts] at hq
        obtain ⟨o, -, rfl⟩ := List.mem_map.1 hq
        rfl
    rw [this]
    rw [houts] at hp
    obtain ⟨o, -, rfl⟩ := List.mem_map.1 hp
    rfl
  · intro v hv'
    obtain rfl := List.mem_singleton.1 hv'
    exact ⟨used_returned h e (by simp [Op.uses]), ⟨_, _, _, e, Or.inl ⟨hn, hd, rfl⟩⟩⟩
  · intro p hp
    rw [houts] at hp
    obtain ⟨o, ho, rfl⟩ := List.mem_map.1 hp
    have hi := (wires_parts (ops prog) d o).1 ho
    have hki := (itemOf_kind hv hi).1
    obtain ⟨a, y, b, e', h1, h2⟩ := id hi
    obtain rfl : y = x := (whole_of hv e' h2).symm.trans hwh
    obtain ⟨pa, key, pb, hpp, ha⟩ := getItem_ops e'
    rw [← ha] at h1
    obtain ⟨-, -, history, ex, g1, g2, g3⟩ := made_item h hpp h1 hi
    refine ⟨o, rfl, ⟨a, _, b, e', ha ▸ h1⟩, Or.inl hi, by simp [hki], by simp [hki], rfl, ?_⟩
    intro val hs inp hin
    simp only [g2, g3]
    refine builtItem_good g1 ((W).name y) fun sels hsel j hj => ?_
    have := hs.item pa y key pb hpp o d h1 hi hdc sels hsel j (g2 ▸ hj)
    rw [g2] at this
    rw [this, hin y (by simp)]
  · intro p hp val hd' inp hin
    rw [houts] at hp
    obtain ⟨o, ho, rfl⟩ := List.mem_map.1 hp
    have hi := (wires_parts (ops prog) d o).1 ho
    obtain ⟨a, y, b, e', h1, h2⟩ := id hi
    obtain rfl : y = x := (whole_of hv e' h2).symm.trans hwh
    obtain ⟨pa, key, pb, hpp, ha⟩ := getItem_ops e'
    rw [← ha] at h1
    obtain ⟨-, -, history, ex, g1, g2, g3⟩ := made_item h hpp h1 hi
    simp only [g2, g3]
    classical
    refine ⟨fun j => if hs : ∃ sels, KeySelects (l.shape y) key.items sels then inp ((W).name y)
      (ravel (l.shape y) (List.zipWith (fun l i => l.getD i 0) hs.choose j)) else 0,
      builtItem_good g1 ((W).name y) fun sels hsel j hj => ?_⟩
    rw [dif_pos ⟨sels, hsel⟩, keySelects_unique (Exists.choose_spec ⟨sels, hsel⟩) hsel]
  · rintro v hr (hi | ⟨hne, rfl⟩)
    · rw [houts, List.map_map]
      exact List.mem_map.2 ⟨v, (wires_parts (ops prog) d v).2 hi, rfl⟩
    · exfalso
      rcases (returned_kind hv hr).2 with h1 | h1 | h1 | h1 | h1 <;> rw [hk] at h1 <;> cases h1
  · intro p hp q hq e'
    rw [houts] at hp hq
    obtain ⟨o, ho, rfl⟩ := List.mem_map.1 hp
    obtain ⟨o', ho', rfl⟩ := List.mem_map.1 hq
    rw [h.ok.own o o' (itemOf_hasVar hv ((wires_parts (ops prog) d o).1 ho))
      (itemOf_hasVar hv ((wires_parts (ops prog) d o').1 ho')) e']

/-- An object in `comps` is an independent variable or a subsystem, or its component reads objects it depends on and computes its
arrays from theirs. -/
theorem comps_cases (h : CompiledOn genv env m prog l comps size) {u : Ref} (hu : u ∈ comps) :
    (((W).kind u = .indep ∨ (W).kind u = .subsystem) ∧ l.outsOf W K u = []) ∨ ∃ refs, Computes genv prog l comps u (l.outsOf W K u) refs := by
  have hv := h.ok.group.valid
  obtain ⟨hneeds, hbuilt⟩ := h.arranged.needed u hu
  have hlt := comps_lt h.ok h.arranged hu
  cases hk : (W).kind u with
  | indep => exact Or.inl ⟨Or.inl rfl, by unfold Layout.outsOf; rw [hk]⟩
  | root => simp [World.built, hk] at hbuilt
  | input => simp [World.built, hk] at hbuilt
  | implicitOut => simp [World.built, hk] at hbuilt
  | item => simp [World.built, hk] at hbuilt
  | subsystem => exact Or.inl ⟨Or.inr rfl, by unfold Layout.outsOf; rw [hk]⟩
  | decomp =>
    exact Or.inr ⟨_, made_decomp h hk hu⟩
  | expr =>
    right
    have h0 : 0 < u := by
      obtain ⟨c, _, hcu⟩ := Relation.TransGen.tail'_iff.1 hneeds
      exact (h.ok.group.ok.range c u hcu).1
    obtain ⟨a, c, b, hp, hua⟩ := expr_from hv h0 hlt hk
    obtain ⟨B, h1, -, -, h2⟩ := made_expr h hp hua hu
    exact ⟨_, h1 ▸ h2⟩
  | explicitOut =>
    right
    by_cases hi : AssignedTo prog u
    · obtain ⟨h1, h2⟩ := made_indexed h hi hu
      exact ⟨_, h1 ▸ h2⟩
    · obtain ⟨a, e, b, e1, h2⟩ := defined_from hv h.ok.group.safe hk (h.arranged.defined u hu hk)
        (by rw [assignedTo_iff h] at hi; simpa using hi)
      obtain ⟨pa, st, pb, hp, ha, hst, hb⟩ := ops_split e1
      obtain rfl : st = .define u e := by cases st <;> cases hst; rfl
      obtain ⟨h3, -, h4⟩ := made_define h hp hu (by rw [ha]; exact h2) hk hi
      exact ⟨_, h3 ▸ h4⟩

theorem lookup_val (h : CompiledOn genv env m prog l comps size) {ins : List (String × Nat)} {val : Ref → Nat → ℝ}
    (hz : ∀ u i, prodShape (l.shape u) ≤ i → val u i = 0) {s : Store (FlatArr size)} {v : Ref}
    (hv : (W).name v ∈ ins.map Prod.fst) (hr : Returned genv (ops prog) v)
    (hs : ∀ i : Fin (size ((W).name v)), s ((W).name v) i = val v i) :
    lookup (reads := ins.map Prod.fst) (fun i => s (ins.map Prod.fst)[i]) ((W).name v) = val v := by
  funext j
  rw [lookup_store s hv j]
  split
  · rename_i hj
    exact hs ⟨j, hj⟩
  · rename_i hj
    rw [h.size v hr] at hj
    exact (hz v j (by omega)).symm

theorem Computes.insOf_wired {u : Ref} {outs : List (String × Built)} {refs : List Ref}
    (hc : Computes genv prog l comps u outs refs) :
    ((insOf outs).map Prod.fst).Nodup ∧ (∀ p ∈ insOf outs, ∃ v ∈ refs, p = ((W).name v, prodShape (l.shape v))) ∧
      ∀ v ∈ refs, (W).name v ∈ (insOf outs).map Prod.fst := by
  cases outs with
  | nil => exact absurd rfl hc.nonempty
  | cons p ps =>
    obtain ⟨h1, h2, h3⟩ := hc.wired p (by simp)
    exact ⟨h1, h2, h3⟩

/-- Operands of what `setup` adds have values. -/
theorem operand_valued (h : CompiledOn genv env m prog l comps size) {u v : Ref} (hu : u ∈ comps)
    (hr : Returned genv (ops prog) v) (hd : BuiltFrom genv (ops prog) u v) : Valued genv prog comps v := by
  refine ⟨hr, ?_⟩
  have hv := h.ok.group.valid
  have hni : (W).kind v ≠ .implicitOut ∧ (W).kind v ≠ .root := by
    constructor <;>
    · intro hk'
      rcases (returned_kind hv hr).2 with h1 | h1 | h1 | h1 | h1 <;> rw [hk'] at h1 <;> cases h1
  by_cases hk : (W).kind v = .input
  · exact Or.inl hk
  · obtain ⟨d, hw, -⟩ := exists_writer hv v
    exact Or.inr ⟨d, h.arranged.closed u hu v d hd hw hni.1 (writes_built hv hw hni.2 hk hni.1), hw⟩

/-- The name of a declared input is not the name of a component. -/
theorem input_unwritten (h : CompiledPart genv env m prog l comps size) {v : Ref} (hr : Returned genv (ops prog) v)
    (hk : (W).kind v = .input) {u : Ref} (hu : HasVar W u) : (W).name u ≠ (W).name v := by
  obtain ⟨a, op, b, e, ho⟩ := hr
  have hv := h.ok.group.valid
  rw [e] at hv
  obtain ⟨_, h3, h4⟩ := made_kind hv ho
  rw [← e, hk] at h3
  cases op with
  | declareInput nm =>
    obtain rfl : v = (final genv a).next := ho
    have hn : (W).name (final genv a).next = nm := by rw [e]; exact input_name hv
    rw [hn]
    exact (h.program.inputs a nm b e).1 u hu
  | createIndep nm => simp only at h4; rw [← h3] at h4; cases h4
  | createOutput nm => simp only at h4; rw [← h3] at h4; cases h4
  | combine nm => simp only at h4; rw [← h3] at h4; cases h4
  | getItem nm => simp only at h4; rw [← h3] at h4; cases h4
  | _ => exact h4.elim

theorem total_of {B : Built} {inp : String → Nat → ℝ} {r : Nat → ℝ} (h : B.compute inp = .ok r) :
    B.total inp = r := by
  unfold Built.total
  rw [h]

/-- What a component reads does not change after it has run. -/
theorem reads_prefix {V : String → Type} {comp : Ref → Comp V} {p s : List Ref} {u : Ref}
    (hnd : (p ++ u :: s).Nodup) (hown : OwnNames (· ∈ p ++ u :: s) comp)
    (hreads : ∀ u' ∈ p ++ u :: s, ∀ n ∈ (comp u').reads, ReadOk comp (p ++ u :: s) u' n) (init : Store V)
    {n : String} (hn : n ∈ (comp u).reads) :
    runAll (p.map comp) init n = runAll ((p ++ u :: s).map comp) init n := by
  rw [List.map_append, runAll_append]
  refine (runAll_untouched (u :: s) _ fun v hv hm => ?_).symm
  rcases hreads u (by simp) n hn with h1 | ⟨v', hb, hm'⟩
  · exact h1 v (List.mem_append.2 (Or.inr hv)) hm
  · have hp := before_mem_prefix hnd rfl hb
    obtain rfl := hown v v' n (List.mem_append.2 (Or.inr hv)) (List.mem_append.2 (Or.inl hp)) hm hm'
    exact (List.nodup_append.1 hnd).2.2 v hp v hv rfl

/-- Two returned objects, neither of which is an input, do not have the same name. -/
theorem returned_own (h : CompiledPart genv env m prog l comps size) {u v : Ref} (hu : Returned genv (ops prog) u)
    (hv : Returned genv (ops prog) v) (hku : (W).kind u ≠ .input) (e : (W).name u = (W).name v) : u = v := by
  have hval := h.ok.group.valid
  have has : ∀ {x}, Returned genv (ops prog) x → (W).kind x ≠ .input → HasVar W x := by
    intro x hx hk
    refine ⟨(returned_kind hval hx).1.2, ?_⟩
    rcases (returned_kind hval hx).2 with h1 | h1
    · exact absurd h1 hk
    · rcases h1 with h1 | h1 | h1 | h1 <;> simp [h1]
  have hkv : (W).kind v ≠ .input := fun hk => input_unwritten h hv hk (has hu hku) e
  exact h.ok.own u v (has hu hku) (has hv hkv) e

/-- The array computed for an output of a component. -/
theorem run_entry (h : CompiledPart genv env m prog l comps size) (init : Store (FlatArr size)) {u : Ref} (hu : u ∈ comps)
    {v : Ref} {B : Built} (hB : ((W).name v, B) ∈ l.outsOf W K u) (i : Fin (size ((W).name v))) :
    runAll (comps.map (l.comp W K size)) init ((W).name v) i =
      B.total (lookup (reads := (insOf (l.outsOf W K u)).map Prod.fst) fun j =>
        runAll (comps.map (l.comp W K size)) init ((insOf (l.outsOf W K u)).map Prod.fst)[j]) i := by
  have hrz := compiled_realises h.toCompiledOn
  have hnd := h.arranged.nodup
  have hown := realises_own h.ok h.arranged hrz
  have hreads := realises_reads h.program (oldNames h.toCompiledOn) h.arranged h.order hrz
  have hmem : (W).name v ∈ (l.outsOf W K u).map Prod.fst := List.mem_map.2 ⟨_, hB, rfl⟩
  rw [runAll_equation hnd hown hreads init hu (rfl : l.comp W K size u = _) hmem]
  obtain ⟨p, hp, hpn, hf⟩ := outs_find hmem
  obtain rfl : p = ((W).name v, B) := by
    rcases comps_cases h.toCompiledOn hu with ⟨-, h1⟩ | ⟨refs, hc⟩
    · rw [h1] at hB; cases hB
    · exact hc.inj p hp _ hB hpn
  show (match (l.outsOf W K u).find? (fun p => p.1 == (W).name v) with
    | none => 0
    | some p => p.2.total _ i) = _
  rw [hf]
  rfl

/-- The value of every variable after the run. -/
theorem run_val (h : CompiledPart genv env m prog l comps size) {init : Store (FlatArr size)} {val : Ref → Nat → ℝ}
    (hs : Solves genv prog l.shape comps val) (hi : Starts genv prog init val) {v : Ref}
    (hv : Valued genv prog comps v) (i : Fin (size ((W).name v))) :
    runAll (comps.map (l.comp W K size)) init ((W).name v) i = val v i := by
  have hval := h.ok.group.valid
  have hrz := compiled_realises h.toCompiledOn
  have hnd := h.arranged.nodup
  have hown := realises_own h.ok h.arranged hrz
  have hreads := realises_reads h.program (oldNames h.toCompiledOn) h.arranged h.order hrz
  have hev := runAll_eval hnd hown hreads init ((W).name v)
  have key : ∀ n (a : FlatArr size n), Eval (· ∈ comps) (l.comp W K size) init n a →
      ∀ v, Valued genv prog comps v → (W).name v = n →
        ∀ i : Fin (size n), runAll (comps.map (l.comp W K size)) init n i = val v i := by
    intro n a ha
    induction ha with
    | given n hn =>
      rintro v ⟨hr, hk⟩ rfl i
      have hk : (W).kind v = .input ∨ (W).kind v = .indep := by
        rcases hk with hk | ⟨d, hd, hw⟩
        · exact Or.inl hk
        · rcases comps_cases h.toCompiledOn hd with ⟨h1, -⟩ | ⟨refs, hc⟩
          · rcases hw with hw | ⟨-, rfl⟩
            · rw [(itemOf_kind hval hw).2] at h1; rcases h1 with h1 | h1 <;> cases h1
            · refine Or.inr (h1.resolve_right fun h1 => ?_)
              rcases (returned_kind hval hr).2 with h2 | h2 | h2 | h2 | h2 <;> rw [h1] at h2 <;> cases h2
          · exact absurd (hc.own v hr hw) (hn d hd)
      rw [runAll_untouched comps init hn]
      exact hi v hr hk i
    | computed u n hu hn x hx ih =>
      rintro v ⟨hr, hk⟩ hvn i
      rcases comps_cases h.toCompiledOn hu with ⟨-, h1⟩ | ⟨refs, hc⟩
      · simp [Layout.comp, h1, outsComp] at hn
      · obtain ⟨p, hp, hpn⟩ := List.mem_map.1 hn
        obtain ⟨v', hv1, hv2, hv3, hv4, hv5, hv6, hgood⟩ := hc.out p hp
        obtain rfl : v' = v := returned_own h hv2 hr hv4 (by rw [← hv1, hpn, hvn])
        subst hvn
        have ih' : ∀ n ∈ (l.comp W K size u).reads, ∀ v, Valued genv prog comps v → (W).name v = n →
            ∀ i : Fin (size n), runAll (comps.map (l.comp W K size)) init n i = val v i := by
          intro n hn
          obtain ⟨k, hk, rfl⟩ := List.getElem_of_mem hn
          exact ih ⟨k, hk⟩
        obtain ⟨-, -, hall⟩ := hc.insOf_wired
        have hin := fun w (hw' : w ∈ refs) => lookup_val h.toCompiledOn hs.zero (s := runAll (comps.map (l.comp W K size)) init)
          (hall w hw') (hc.needs w hw').1
          (ih' _ (hall w hw') w (operand_valued h.toCompiledOn hu (hc.needs w hw').1 (hc.needs w hw').2) rfl)
        have hB : ((W).name v', p.2) ∈ l.outsOf W K u := by rw [← hv1]; exact hp
        rw [run_entry h init hu hB]
        obtain ⟨r, r1, r2⟩ := (hgood val hs _ hin).value
        have hlt : i.1 < prodShape (l.shape v') := h.size v' hr ▸ i.2
        have := r2 _ (unravel_inBounds hlt)
        rw [ravel_unravel hlt] at this
        rw [← this]
        exact congrFun (total_of r1) i.1
  exact key _ _ hev v hv rfl i

/-- What a component reads has the values of the program. -/
theorem reads_val (h : CompiledPart genv env m prog l comps size) {init : Store (FlatArr size)} {val : Ref → Nat → ℝ}
    (hs : Solves genv prog l.shape comps val) (hi : Starts genv prog init val) {u : Ref} (hu : u ∈ comps)
    {refs : List Ref} (hc : Computes genv prog l comps u (l.outsOf W K u) refs) :
    ∀ v ∈ refs, lookup (reads := (insOf (l.outsOf W K u)).map Prod.fst) (fun j =>
      runAll (comps.map (l.comp W K size)) init ((insOf (l.outsOf W K u)).map Prod.fst)[j]) ((W).name v) = val v :=
  fun v hv => lookup_val h.toCompiledOn hs.zero (hc.insOf_wired.2.2 v hv) (hc.needs v hv).1 fun i =>
    run_val h hs hi (operand_valued h.toCompiledOn hu (hc.needs v hv).1 (hc.needs v hv).2) i

/-- The components run without exceptions. -/
theorem runE_ok (h : CompiledPart genv env m prog l comps size) {init : Store (FlatArr size)} {val : Ref → Nat → ℝ}
    (hs : Solves genv prog l.shape comps val) (hi : Starts genv prog init val) :
    runAllE (comps.map (l.compE W K size)) init = .ok (runAll (comps.map (l.comp W K size)) init) := by
  have hrz := compiled_realises h.toCompiledOn
  have hnd := h.arranged.nodup
  have hown := realises_own h.ok h.arranged hrz
  have hreads := realises_reads h.program (oldNames h.toCompiledOn) h.arranged h.order hrz
  refine runAllE_ok comps fun p u s e => ?_
  have hu : u ∈ comps := by rw [e]; simp
  refine outsCompE_run fun q hq => ?_
  rcases comps_cases h.toCompiledOn hu with ⟨-, h1⟩ | ⟨refs, hc⟩
  · rw [h1] at hq; cases hq
  · have hsame : (fun j : Fin ((insOf (l.outsOf W K u)).map Prod.fst).length =>
        runAll (p.map (l.comp W K size)) init ((insOf (l.outsOf W K u)).map Prod.fst)[j]) =
        fun j => runAll (comps.map (l.comp W K size)) init ((insOf (l.outsOf W K u)).map Prod.fst)[j] := by
      funext j
      have := reads_prefix (comp := l.comp W K size) (e ▸ hnd) (e ▸ hown) (e ▸ hreads) init
        (u := u) (n := ((insOf (l.outsOf W K u)).map Prod.fst)[j]) (List.getElem_mem _)
      rw [this, ← e]
    rw [hsame]
    obtain ⟨v, -, -, -, -, -, -, hgood⟩ := hc.out q hq
    obtain ⟨r, r1, -⟩ := (hgood val hs _ (reads_val h hs hi hu hc)).value
    exact ⟨r, r1⟩

/-- The components run without exceptions, give every variable the array that the calls of the program say, and
`compute_partials` of no component raises an exception there. -/
theorem part_values (h : CompiledPart genv env m prog l comps size) {init : Store (FlatArr size)} {val : Ref → Nat → ℝ}
    (hs : Solves genv prog l.shape comps val) (hi : Starts genv prog init val) :
    ∃ S, runAllE (comps.map (l.compE W K size)) init = .ok S ∧
      (∀ u, Valued genv prog comps u → ∀ i : Fin (size ((W).name u)), S ((W).name u) i = val u i) ∧
      ∀ u ∈ comps, ∀ p ∈ l.outsOf W K u,
        ∃ P, p.2.partials (lookup (reads := p.2.ins.map Prod.fst) fun i => S (p.2.ins.map Prod.fst)[i]) = .ok P := by
  refine ⟨_, runE_ok h hs hi, fun u hu i => run_val h hs hi hu i, fun u hu p hp => ?_⟩
  rcases comps_cases h.toCompiledOn hu with ⟨-, h1⟩ | ⟨refs, hc⟩
  · rw [h1] at hp; cases hp
  · obtain ⟨v, -, -, -, -, -, -, hgood⟩ := hc.out p hp
    have key : ∀ ins, ins = insOf (l.outsOf W K u) → ∃ P, p.2.partials (lookup (reads := ins.map Prod.fst) fun i =>
        runAll (comps.map (l.comp W K size)) init (ins.map Prod.fst)[i]) = .ok P := by
      rintro _ rfl
      exact (hgood val hs _ (reads_val h hs hi hu hc)).partials
    exact key _ (hc.ins p hp)

/-- **C69.** The components of a program, run in the order of `setup`, raise no exception, and give every variable the
array that the calls of the program say. The outputs of the group are among these variables. At these arrays
`compute_partials` of no component raises an exception. -/
theorem c69_values (h : Compiled genv env noSub prog l comps size) {init : Store (FlatArr size)} {val : Ref → Nat → ℝ}
    (hs : Solves genv prog l.shape comps val) (hi : Starts genv prog init val) :
    (∃ S, runAllE (comps.map (l.compE W K size)) init = .ok S ∧
      (∀ u, Valued genv prog comps u → ∀ i : Fin (size ((W).name u)), S ((W).name u) i = val u i) ∧
      ∀ u ∈ comps, ∀ p ∈ l.outsOf W K u,
        ∃ P, p.2.partials (lookup (reads := p.2.ins.map Prod.fst) fun i => S (p.2.ins.map Prod.fst)[i]) = .ok P) ∧
    ∀ u, Returned genv (ops prog) u → (W).kind u = .explicitOut → Valued genv prog comps u :=
  ⟨part_values h.part hs hi, fun u hr hk =>
    ⟨hr, Or.inr ⟨u, output_comps h.ok h.setup hr hk, Or.inr ⟨by simp [hk], rfl⟩⟩⟩⟩

/-- The partial derivatives that the components give OpenMDAO. -/
noncomputable abbrev Layout.partials (l : Layout) (w : World) (k : Wires) (size : String → Nat) (u : Ref) :
    Partials (l.comp w k size u) := outsD size (l.outsOf w k u)

/-- The partials are exact at the arrays of the program. -/
theorem compiled_exact (h : CompiledPart genv env m prog l comps size) {init : Store (FlatArr size)} {val : Ref → Nat → ℝ}
    (hs : Solves genv prog l.shape comps val) (hi : Starts genv prog init val) {u : Ref} (hu : u ∈ comps) :
    (l.partials W K size u).ExactAt
      fun i => runAll (comps.map (l.comp W K size)) init (l.comp W K size u).reads[i] := by
  rcases comps_cases h.toCompiledOn hu with ⟨-, h1⟩ | ⟨refs, hc⟩
  · intro n hn
    simp [Layout.comp, h1, outsComp] at hn
  · obtain ⟨w1, w2, -⟩ := hc.insOf_wired
    refine outs_exactAt w1 (fun p hp => ?_) (fun p hp => ?_) _ fun p hp => ?_
    · obtain ⟨v, hv, rfl⟩ := w2 p hp
      exact h.size v (hc.needs v hv).1
    · obtain ⟨v, n1, r1, -, -, -, s1, -⟩ := hc.out p hp
      rw [n1, h.size v r1, s1]
    · obtain ⟨v, -, -, -, -, -, -, hgood⟩ := hc.out p hp
      have := (hgood val hs _ (reads_val h hs hi hu hc)).exact
      rw [hc.ins p hp] at this
      exact this

/-- Total derivatives. If the arrays `val p` solve the equations of the program for `p` near `p₀`, where the
inputs and independent variables are differentiable functions `init p` of `p`, then forward accumulation through the
partials of the components gives the derivatives of these arrays, and it is the only solution of OpenMDAO's linear
system of total derivatives. -/
theorem part_totals {P : Type} [NormedAddCommGroup P] [NormedSpace ℝ P]
    (h : CompiledPart genv env m prog l comps size) {init : P → Store (FlatArr size)} {val : P → Ref → Nat → ℝ} {p₀ : P}
    (hs : ∀ᶠ p in nhds p₀, Solves genv prog l.shape comps (val p) ∧ Starts genv prog (init p) (val p))
    {d₀ : (n : String) → P →L[ℝ] FlatArr size n} (hd : ∀ n, HasFDerivAt (fun p => init p n) (d₀ n) p₀) :
    let S := runAll (comps.map (l.comp W K size)) (init p₀)
    let tangents := runAll (comps.map fun u => tangentComp P (l.comp W K size u) (l.partials W K size u) S) d₀
    (∀ u, Valued genv prog comps u →
      HasFDerivAt (fun p (i : Fin (size ((W).name u))) => val p u i) (tangents ((W).name u)) p₀) ∧
    ∀ d, TotalSystem (· ∈ comps) (l.comp W K size) (l.partials W K size) S d₀ d ↔ d = tangents := by
  intro S tangents
  obtain ⟨hs0, hi0⟩ := hs.self_of_nhds
  obtain ⟨h1, h2⟩ := c56_arranged h.program (oldNames h.toCompiledOn) h.arranged h.order (compiled_realises h.toCompiledOn) (l.partials W K size) init p₀ d₀ hd
    fun u hu => compiled_exact h hs0 hi0 hu
  refine ⟨fun u hu => ?_, h2⟩
  refine (h1 ((W).name u)).congr_of_eventuallyEq ?_
  filter_upwards [hs] with p hp
  funext i
  exact (run_val h hp.1 hp.2 hu i).symm


/-- **C69**, total derivatives. If the arrays `val p` solve the equations of the program for `p` near `p₀`, where the
inputs and independent variables are differentiable functions `init p` of `p`, then forward accumulation through the
partials of the components gives the derivatives of these arrays, and it is the only solution of OpenMDAO's linear
system of total derivatives. -/
theorem c69_totals {P : Type} [NormedAddCommGroup P] [NormedSpace ℝ P]
    (h : Compiled genv env noSub prog l comps size) {init : P → Store (FlatArr size)} {val : P → Ref → Nat → ℝ} {p₀ : P}
    (hs : ∀ᶠ p in nhds p₀, Solves genv prog l.shape comps (val p) ∧ Starts genv prog (init p) (val p))
    {d₀ : (n : String) → P →L[ℝ] FlatArr size n} (hd : ∀ n, HasFDerivAt (fun p => init p n) (d₀ n) p₀) :
    let S := runAll (comps.map (l.comp W K size)) (init p₀)
    let tangents := runAll (comps.map fun u => tangentComp P (l.comp W K size u) (l.partials W K size u) S) d₀
    (∀ u, Valued genv prog comps u →
      HasFDerivAt (fun p (i : Fin (size ((W).name u))) => val p u i) (tangents ((W).name u)) p₀) ∧
    ∀ d, TotalSystem (· ∈ comps) (l.comp W K size) (l.partials W K size) S d₀ d ↔ d = tangents :=
  part_totals h.part hs hd

end
end OM
