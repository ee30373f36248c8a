import Verif.Lemmas.Names
import Verif.Lemmas.Exec

/-!
# The values of a whole group

C12 for the programs the user writes: every call that defines a variable gives an equation between values
of variables, and the values OpenMDAO computes satisfy all these equations.
-/

namespace OM
open Spec

/-- Objects of the user that are variables computed by the group. -/
def HasVar (w : World) (u : Ref) : Prop :=
  u < w.next ∧ (w.kind u = .indep ∨ w.kind u = .explicitOut ∨ w.kind u = .expr ∨ w.kind u = .item)

/-- No variable of the group or of its subsystems has this name. -/
def Unwritten {α : Type} (genv : GEnv) (m : Meaning α) (ops : List Op) (n : String) : Prop :=
  (∀ u, HasVar (final genv ops) u → (final genv ops).name u ≠ n) ∧
  ∀ s, AddedIn genv ops s → n ∉ m.subWrites s

/-- What holds of all programs covered, with or without feedback. -/
structure ProgramCore {α : Type} (genv : GEnv) (env : SetupEnv) (m : Meaning α) (ops : List Op) : Prop where
  group : GroupOk genv env ops
  uses : UsesReturned genv ops
  /-- different variables have different names -/
  own : ∀ u v, HasVar (final genv ops) u → HasVar (final genv ops) v →
    (final genv ops).name u = (final genv ops).name v → u = v
  /-- names of subsystem outputs differ from those of variables and from each other -/
  subs : ∀ s n, AddedIn genv ops s → n ∈ m.subWrites s →
    (∀ u, HasVar (final genv ops) u → (final genv ops).name u ≠ n) ∧
    ∀ s', AddedIn genv ops s' → n ∈ m.subWrites s' → s = s'

/-- The programs covered. -/
structure ProgramOk {α : Type} (genv : GEnv) (env : SetupEnv) (m : Meaning α) (ops : List Op) : Prop
    extends ProgramCore genv env m ops where
  /-- no output is defined by an expression that depends on it: such groups are iterated -/
  feedback : NoFeedback genv ops
  /-- a declared input is not a variable of this group; if it is an output of a subsystem, that has been
  added before -/
  inputs : ∀ a nm b, ops = a ++ .declareInput nm :: b →
    (∀ u, HasVar (final genv ops) u → (final genv ops).name u ≠ nm) ∧
    ∀ s, AddedIn genv ops s → nm ∈ m.subWrites s → AddedIn genv a s
  /-- a subsystem reads variables from outside, outputs made before, and outputs of earlier subsystems -/
  subReads : ∀ a nm b, ops = a ++ .addSubsystem nm :: b → ∀ n ∈ m.subReads (final genv a).next,
    Unwritten genv m ops n ∨
    (∃ o, MadeOutput genv (World.init genv) o a ∧ HasVar (final genv ops) o ∧
      (final genv ops).name o = n) ∨
    ∃ s, AddedIn genv a s ∧ n ∈ m.subWrites s

/-- If an expression assigned to a part of an output is renamed later, nothing has its old name. -/
def OldNamesFree {α : Type} (genv : GEnv) (m : Meaning α) (ops : List Op) : Prop :=
  ∀ a out e b, ops = a ++ .setItem out e none :: b →
    (final genv a).name e = (final genv ops).name e ∨ Unwritten genv m ops ((final genv a).name e)

/-- No expression is registered after it has been assigned to a part of an output. -/
def RegisteredFirst (ops : List Op) : Prop :=
  ∀ a out e b, ops = a ++ .setItem out e none :: b → ∀ nm, Op.registerOutput nm e ∉ b

/-- The expressions assigned to parts of `out`, in order, with the names they had then. -/
def assignedFrom (genv : GEnv) (out : Ref) : World → List Op → List (Ref × String)
  | _, [] => []
  | w, op :: ops =>
    (match op with
      | .setItem o e none => if o = out then [(e, w.name e)] else []
      | _ => []) ++ assignedFrom genv out (step genv w op).1 ops

/-- The expressions assigned to parts of `out` on a new group. -/
abbrev assigned (genv : GEnv) (ops : List Op) (out : Ref) : List (Ref × String) :=
  assignedFrom genv out (World.init genv) ops

section
variable {genv : GEnv} {env : SetupEnv} {α : Type} {m : Meaning α} {ops : List Op}

/-! ## Components by kind -/

theorem compOf_indep {w : World} {k : Wires} {u : Ref} (h : w.kind u = .indep) :
    compOf m w k u = ⟨[], [w.name u], fun _ _ => m.const u⟩ := by
  unfold compOf; rw [h]

theorem compOf_expr {w : World} {k : Wires} {u : Ref} (h : w.kind u = .expr) :
    compOf m w k u = ⟨(k.args u).map w.name, [w.name u], fun x _ => m.op u (List.ofFn x)⟩ := by
  unfold compOf; rw [h]

theorem compOf_decomp {w : World} {k : Wires} {u : Ref} (h : w.kind u = .decomp) :
    compOf m w k u = ⟨[w.name (k.whole u)], (k.parts u).map w.name, fun x n =>
      match (k.parts u).find? (fun o => w.name o == n) with
      | some o => m.part o (x 0)
      | none => x 0⟩ := by
  unfold compOf; rw [h]; rfl

theorem compOf_indexed {w : World} {k : Wires} {u : Ref} (h : w.kind u = .explicitOut)
    (hi : w.indexed u = true) :
    compOf m w k u = ⟨k.keys u, [w.name u], fun x _ => m.assemble u (List.ofFn x)⟩ := by
  unfold compOf; rw [h]; simp only [hi, if_true]

theorem compOf_defined {w : World} {k : Wires} {u : Ref} (h : w.kind u = .explicitOut)
    (hi : w.indexed u = false) :
    compOf m w k u = ⟨[w.name (k.body u)], [w.name u], fun x _ => x 0⟩ := by
  unfold compOf; rw [h]; simp only [hi, Bool.false_eq_true, if_false]

theorem compOf_subsystem {w : World} {k : Wires} {u : Ref} (h : w.kind u = .subsystem) :
    compOf m w k u = ⟨m.subReads u, m.subWrites u, fun x n => m.sub u (List.ofFn x) n⟩ := by
  unfold compOf; rw [h]

/-! ## Who writes what -/

theorem compOf_own {w : World} {k : Wires} {u : Ref}
    (h : w.kind u = .indep ∨ w.kind u = .explicitOut ∨ w.kind u = .expr) :
    (compOf m w k u).writes = [w.name u] := by
  rcases h with h | h | h
  · rw [compOf_indep h]
  · cases hi : w.indexed u with
    | true => rw [compOf_indexed h hi]
    | false => rw [compOf_defined h hi]
  · rw [compOf_expr h]

theorem writes_mem (hv : ValidFrom genv (World.init genv) ops) {d o : Ref}
    (ho : HasVar (final genv ops) o) (h : Writes genv ops d o) :
    (final genv ops).name o ∈ (compOf m (final genv ops) (wires genv ops) d).writes := by
  rcases h with h | ⟨h, rfl⟩
  · rw [compOf_decomp (itemOf_kind hv h).2]
    exact List.mem_map.2 ⟨o, (wires_parts ops d o).2 h, rfl⟩
  · rw [compOf_own]
    · simp
    · rcases ho.2 with h1 | h1 | h1 | h1
      · exact Or.inl h1
      · exact Or.inr (Or.inl h1)
      · exact Or.inr (Or.inr h1)
      · exact absurd h1 h

theorem itemOf_hasVar (hv : ValidFrom genv (World.init genv) ops) {o d : Ref} (h : ItemOf genv ops o d) :
    HasVar (final genv ops) o := by
  refine ⟨?_, Or.inr (Or.inr (Or.inr (itemOf_kind hv h).1))⟩
  obtain ⟨a, x, b, rfl, h1, _⟩ := h
  exact (returned_kind hv ⟨a, .getItem x, b, rfl, h1⟩).1.2

theorem mem_writes (hv : ValidFrom genv (World.init genv) ops) {d : Ref} {n : String}
    (hd : d < (final genv ops).next)
    (h : n ∈ (compOf m (final genv ops) (wires genv ops) d).writes) :
    (∃ o, HasVar (final genv ops) o ∧ Writes genv ops d o ∧ (final genv ops).name o = n) ∨
      (AddedIn genv ops d ∧ n ∈ m.subWrites d) := by
  have own : (final genv ops).kind d = .indep ∨ (final genv ops).kind d = .explicitOut ∨
      (final genv ops).kind d = .expr →
      ∃ o, HasVar (final genv ops) o ∧ Writes genv ops d o ∧ (final genv ops).name o = n := by
    intro hk
    rw [compOf_own hk, List.mem_singleton] at h
    refine ⟨d, ⟨hd, ?_⟩, Or.inr ⟨?_, rfl⟩, h.symm⟩
    · rcases hk with hk | hk | hk <;> simp [hk]
    · rcases hk with hk | hk | hk <;> simp [hk]
  cases hk : (final genv ops).kind d with
  | indep => exact Or.inl (own (Or.inl hk))
  | explicitOut => exact Or.inl (own (Or.inr (Or.inl hk)))
  | expr => exact Or.inl (own (Or.inr (Or.inr hk)))
  | decomp =>
    rw [compOf_decomp hk] at h
    obtain ⟨o, ho, rfl⟩ := List.mem_map.1 h
    have ho' := (wires_parts ops d o).1 ho
    exact Or.inl ⟨o, itemOf_hasVar hv ho', Or.inl ho', rfl⟩
  | subsystem =>
    rw [compOf_subsystem hk] at h
    exact Or.inr ⟨subsystem_from hv hk, h⟩
  | root => unfold compOf at h; rw [hk] at h; simp at h
  | input => unfold compOf at h; rw [hk] at h; simp at h
  | implicitOut => unfold compOf at h; rw [hk] at h; simp at h
  | item => unfold compOf at h; rw [hk] at h; simp at h

theorem writer_unique (hv : ValidFrom genv (World.init genv) ops) {o d d' : Ref}
    (h : Writes genv ops d o) (h' : Writes genv ops d' o) : d = d' :=
  (exists_writer hv o).unique h h'

theorem program_own (h : ProgramCore genv env m ops) {u v : Ref} {n : String}
    (hu : u < (final genv ops).next) (hv : v < (final genv ops).next)
    (h1 : n ∈ (compOf m (final genv ops) (wires genv ops) u).writes)
    (h2 : n ∈ (compOf m (final genv ops) (wires genv ops) v).writes) : u = v := by
  rcases mem_writes h.group.valid hu h1 with ⟨o, o1, o2, o3⟩ | ⟨o1, o2⟩
  · rcases mem_writes h.group.valid hv h2 with ⟨p, p1, p2, p3⟩ | ⟨p1, p2⟩
    · obtain rfl := h.own o p o1 p1 (o3.trans p3.symm)
      exact writer_unique h.group.valid o2 p2
    · exact absurd o3 ((h.subs v n p1 p2).1 o o1)
  · rcases mem_writes h.group.valid hv h2 with ⟨p, p1, p2, p3⟩ | ⟨p1, p2⟩
    · exact absurd p3 ((h.subs u n o1 o2).1 p p1)
    · exact (h.subs u n o1 o2).2 v p1 p2

theorem unwritten_writes (hv : ValidFrom genv (World.init genv) ops) {n : String}
    (h : Unwritten genv m ops n) {d : Ref} (hd : d < (final genv ops).next) :
    n ∉ (compOf m (final genv ops) (wires genv ops) d).writes := by
  intro hn
  rcases mem_writes hv hd hn with ⟨o, o1, _, o3⟩ | ⟨o1, o2⟩
  · exact h.1 o o1 o3
  · exact h.2 d o1 o2

/-! ## Reads are written before -/

theorem link_edge (h : ProgramOk genv env m ops) {a b : List Op} {op : Op} (e : ops = a ++ op :: b)
    {u v : Ref} (hl : op.Links genv a u v) : v ∈ (final genv ops).deps u := by
  subst e
  have hva := (validFrom_append genv a _ _).1 h.group.valid
  have e : a ++ op :: b = (a ++ [op]) ++ b := by simp
  have h1 := step_links hva.1 hva.2.1 hl
  rw [← final_snoc] at h1
  have hv := h.group.valid
  have hs := h.group.safe
  have hu := h.uses
  have hf := h.feedback
  rw [e] at hv hs hu hf ⊢
  exact kept hv hs hu hf h1

/-- What is made an output stays one. -/
theorem root_edge (hv : ValidFrom genv (World.init genv) ops) {a b : List Op} {op : Op} (e : ops = a ++ op :: b)
    {v : Ref} (hl : op.Links genv a 0 v) : v ∈ (final genv ops).deps 0 := by
  subst e
  have hva := (validFrom_append genv a _ _).1 hv
  have ok1 := step_ok (env := genv) (run_ok a (worldOk_init genv) hva.1) hva.2.1
  rw [final_split, final_snoc]
  exact run_root b ok1 hva.2.2 _ (step_links hva.1 hva.2.1 hl)

/-- Reading `n` gives the value of the component that writes `n`, or nothing writes it. -/
def ReadOk {V : String → Type} (comp : Ref → Comp V) (comps : List Ref) (u : Ref) (n : String) : Prop :=
  (∀ v ∈ comps, n ∉ (comp v).writes) ∨ ∃ v, Before comps v u ∧ n ∈ (comp v).writes

variable {comps : List Ref}

/-- `comps` are components of the group: all the components that `setup` adds, or those that some of the outputs
depend on. -/
structure Arranged (genv : GEnv) (ops : List Op) (comps : List Ref) : Prop where
  nodup : comps.Nodup
  needed : ∀ u ∈ comps, Needs (final genv ops).deps 0 u ∧ (final genv ops).built u = true
  defined : ∀ u ∈ comps, (final genv ops).kind u = .explicitOut → (final genv ops).defined u = true
  /-- what computes an operand is among them -/
  closed : ∀ u ∈ comps, ∀ v d, BuiltFrom genv ops u v → Writes genv ops d v →
    (final genv ops).kind v ≠ .implicitOut → (final genv ops).built d = true → d ∈ comps

/-- `comps` are in an order in which they can be run: after what computes the variables they are made from, the
subsystems that write the inputs they are made from, and the subsystems they depend on. -/
structure InOrder {α : Type} (genv : GEnv) (m : Meaning α) (ops : List Op) (comps : List Ref) : Prop where
  operand : ∀ u ∈ comps, ∀ x ∈ (final genv ops).deps u, HasVar (final genv ops) x → ∀ d, Writes genv ops d x →
    Before comps d u
  input : ∀ u ∈ comps, ∀ a nm b, ops = a ++ .declareInput nm :: b → (final genv a).next ∈ (final genv ops).deps u →
    ∀ s, AddedIn genv a s → nm ∈ m.subWrites s → Before comps s u
  sub : ∀ u ∈ comps, ∀ s ∈ (final genv ops).deps u, (final genv ops).kind s = .subsystem → Before comps s u

/-- The components added by `setup`. -/
theorem arranged_setup (h : GroupOk genv env ops) (hc : setupGroup env (final genv ops) = .ok comps) :
    Arranged genv ops comps := by
  obtain ⟨hn, hm⟩ := comps_iff h hc
  refine ⟨hn, fun u hu => (hm u).1 hu, ?_, ?_⟩
  · intro u hu hk
    obtain ⟨l, _, h3, _, h4⟩ := setupGroup_eq h
    rw [h4] at hc
    by_cases hd : ∃ u ∈ l, (final genv ops).undefinedOut u
    · rw [buildAll_error l hd] at hc; cases hc
    · by_contra hdef
      refine hd ⟨u, (h3 u).2 ((hm u).1 hu).1, ?_⟩
      simpa [World.undefinedOut, hk] using hdef
  · intro u hu v d h1 h2 h3 h4
    refine (hm d).2 ⟨writes_needs h.valid h.safe h2 ((needs_of_built h.valid h.safe
      ((((c02_group h hc u).2.1 hu).1).tail h1)).resolve_right h3), h4⟩

theorem comps_lt (h : ProgramCore genv env m ops) (hc : Arranged genv ops comps) {u : Ref}
    (hu : u ∈ comps) : u < (final genv ops).next := by
  obtain ⟨c, _, hcu⟩ := Relation.TransGen.tail'_iff.1 (hc.needed u hu).1
  exact (h.group.ok.range c u hcu).2

theorem unwritten_readOk (h : ProgramOk genv env m ops)
    (hc : Arranged genv ops comps) {u : Ref} {n : String}
    (hn : Unwritten genv m ops n) : ReadOk (compOf m (final genv ops) (wires genv ops)) comps u n :=
  Or.inl fun _ hv => unwritten_writes h.group.valid hn (comps_lt h.toProgramCore hc hv)

theorem hasVar_built (hv : ValidFrom genv (World.init genv) ops) {x d : Ref} (hx : HasVar (final genv ops) x)
    (hw : Writes genv ops d x) : (final genv ops).built d = true := by
  refine writes_built hv hw ?_ ?_ ?_
  · rcases hx.2 with h1 | h1 | h1 | h1 <;> simp [h1]
  · rcases hx.2 with h1 | h1 | h1 | h1 <;> simp [h1]
  · rcases hx.2 with h1 | h1 | h1 | h1 <;> simp [h1]

theorem hasVar_readOk (h : ProgramOk genv env m ops)
    (ho : InOrder genv m ops comps) {u x : Ref} (hu : u ∈ comps)
    (hx : HasVar (final genv ops) x) (hd : x ∈ (final genv ops).deps u) :
    ReadOk (compOf m (final genv ops) (wires genv ops)) comps u ((final genv ops).name x) := by
  obtain ⟨d, hw, _⟩ := exists_writer h.group.valid x
  exact Or.inr ⟨d, ho.operand u hu x hd hx d hw, writes_mem h.group.valid hx hw⟩

theorem sub_readOk {u s : Ref} {n : String} (hs : (final genv ops).kind s = .subsystem) (hn : n ∈ m.subWrites s)
    (hd : Before comps s u) :
    ReadOk (compOf m (final genv ops) (wires genv ops)) comps u n :=
  Or.inr ⟨s, hd, by rw [compOf_subsystem hs]; exact hn⟩

theorem addedIn_kind {a b : List Op} (hv : ValidFrom genv (World.init genv) (a ++ b)) {s : Ref}
    (h : AddedIn genv a s) : (final genv (a ++ b)).kind s = .subsystem := by
  obtain ⟨a1, nm, a2, rfl, rfl⟩ := h
  have e : (a1 ++ .addSubsystem nm :: a2) ++ b = a1 ++ .addSubsystem nm :: (a2 ++ b) := by simp
  rw [e] at hv ⊢
  have hva := (validFrom_append genv a1 _ _).1 hv
  have oka := run_ok a1 (worldOk_init genv) hva.1
  have ok1 := step_ok (env := genv) oka hva.2.1
  obtain ⟨_, h2, h3, _⟩ := WorldOk.addDeps (env := genv) ((final genv a1).deps 0)
    (oka.alloc .subsystem nm) (u := (final genv a1).next) (Nat.lt_succ_self _)
    (by simp [World.alloc])
    (fun d hd => ⟨(oka.range 0 d hd).1, Nat.lt_succ_of_lt (oka.range 0 d hd).2⟩)
  rw [final_split genv a1 (a2 ++ b), final_snoc, run_kind (a2 ++ b) ok1 hva.2.2]
  · refine (congrFun h3 _).trans ?_
    exact Function.update_self ..
  · exact lt_of_lt_of_eq (Nat.lt_succ_self _) h2.symm

theorem read_ok (h : ProgramOk genv env m ops) (hc : Arranged genv ops comps)
    (ho : InOrder genv m ops comps)
    {u x : Ref} (hu : u ∈ comps) (hx : Returned genv ops x) (hd : x ∈ (final genv ops).deps u) :
    ReadOk (compOf m (final genv ops) (wires genv ops)) comps u ((final genv ops).name x) := by
  obtain ⟨⟨_, h1⟩, h2⟩ := returned_kind h.group.valid hx
  by_cases hk : (final genv ops).kind x = .input
  · obtain ⟨a, op, b, e, hr⟩ := hx
    have hin : ∃ nm, op = .declareInput nm := by
      subst e
      obtain ⟨_, h3, h4⟩ := made_kind h.group.valid hr
      rw [hk] at h3
      cases op with
      | declareInput nm => exact ⟨nm, rfl⟩
      | createIndep nm => simp only at h4; rw [← h3] at h4; cases h4
      | createOutput nm => simp only at h4; rw [← h3] at h4; cases h4
      | combine nm => simp only at h4; rw [← h3] at h4; cases h4
      | getItem nm => simp only at h4; rw [← h3] at h4; cases h4
      | _ => exact h4.elim
    obtain ⟨nm, rfl⟩ := hin
    obtain rfl : x = (final genv a).next := hr
    obtain ⟨i1, i2⟩ := h.inputs a nm b e
    have hname : (final genv ops).name (final genv a).next = nm := by
      have := h.group.valid
      subst e
      exact input_name this
    rw [hname]
    by_cases hs : ∃ s, AddedIn genv ops s ∧ nm ∈ m.subWrites s
    · obtain ⟨s, s1, s2⟩ := hs
      have s3 := i2 s s1 s2
      exact sub_readOk (by simpa using addedIn_kind (b := []) (by simpa using h.group.valid) s1) s2
        (ho.input u hu a nm b e hd s s3 s2)
    · refine unwritten_readOk h hc ⟨i1, fun s s1 s2 => hs ⟨s, s1, s2⟩⟩
  · refine hasVar_readOk h ho hu ⟨h1, ?_⟩ hd
    rcases h2 with h2 | h2
    · exact absurd h2 hk
    · exact h2

/-- `setup` adds the components in an order in which they can be run. -/
theorem inOrder_setup (h : ProgramOk genv env m ops) (hc : setupGroup env (final genv ops) = .ok comps) :
    InOrder genv m ops comps := by
  obtain ⟨hn, hm⟩ := comps_iff h.group hc
  have before : ∀ u ∈ comps, ∀ v, Needs (final genv ops).deps u v → (final genv ops).built v = true →
      Before comps v u := fun u hu v h1 h2 => setupGroup_before h.group hc ((hm u).1 hu).1 h1 ((hm u).1 hu).2 h2
  refine ⟨fun u hu x hx hv d hw => ?_, fun u hu a nm b e hx s hs _ => ?_, fun u hu s hs hk => ?_⟩
  · exact before u hu d (writes_needs h.group.valid h.group.safe hw (.single hx)) (hasVar_built h.group.valid hv hw)
  · have hv := h.group.valid
    have hsf := h.group.safe
    have hus := h.uses
    have hf := h.feedback
    refine before u hu s ((Relation.TransGen.single hx).trans ?_) ?_
    · subst e
      exact input_after hv hsf hus hf hs
    · have hk : (final genv ops).kind s = .subsystem := by
        subst e
        exact addedIn_kind hv hs
      simp [World.built, hk]
  · exact before u hu s (.single hs) (by simp [World.built, hk])

/-! ## Outputs -/

theorem addDeps_indexed {u : Ref} (ds : List Ref) (w : World) :
    (ds.foldl (fun w' d => w'.addDep genv u d) w).indexed = w.indexed := by
  induction ds generalizing w with
  | nil => rfl
  | cons d ds ih => rw [List.foldl_cons, ih]; rfl

theorem step_indexed (w : World) (op : Op) (u : Ref) :
    (step genv w op).1.indexed u = true ↔
      w.indexed u = true ∨ ∃ e, op = .setItem u e none ∧ w.kind u = .explicitOut := by
  cases op with
  | declareInput nm => unfold step; cases hr : w.recent <;> simp [World.alloc, World.addDep]
  | createIndep nm =>
    unfold step; simp only
    rw [World.register_keeps.2.2.2.2.2.1]
    cases hr : w.recent <;> simp [World.alloc, World.addDep]
  | createOutput nm => simp [step, World.alloc, World.addDep]
  | createImplicit nm => simp [step, World.alloc]
  | combine args =>
    show World.indexed (args.foldl _ _) u = true ↔ _
    rw [addDeps_indexed]; simp [World.alloc]
  | getItem x =>
    unfold step; simp only
    cases hd : w.decomp x with
    | some d => simp [hd, World.alloc, World.addDep]
    | none => simp [World.alloc, World.addDep]
  | registerOutput nm x =>
    show (w.register genv nm x).1.indexed u = true ↔ _
    rw [World.register_keeps.2.2.2.2.2.1]; simp
  | addSubsystem nm =>
    show World.indexed ((w.deps 0).foldl _ _) u = true ↔ _
    rw [addDeps_indexed]; simp [World.alloc]
  | define out e =>
    unfold step; simp only
    split
    · simp
    · split
      · simp
      · split
        · simp
        · split <;> simp [World.alloc, World.addDep]
  | setItem out e c =>
    unfold step; simp only
    split
    · rename_i hk
      constructor
      · exact Or.inl
      · rintro (h | ⟨e', h1, h2⟩)
        · exact h
        · cases h1; exact absurd h2 hk
    · rename_i hk
      cases c with
      | some err => simp [World.addDep]
      | none =>
        show Function.update w.indexed out true u = true ↔ _
        by_cases ho : u = out
        · subst ho
          rw [Function.update_self]
          simp at hk
          simp [hk]
        · rw [Function.update_of_ne ho]
          constructor
          · exact Or.inl
          · rintro (h | ⟨e', h1, _⟩)
            · exact h
            · cases h1; exact absurd rfl ho
  | defineResidual out e =>
    unfold step; simp only
    split
    · simp
    · split
      · simp
      · split
        · simp
        · split
          · simp [World.alloc]
          · split
            · rw [World.register_keeps.2.2.2.2.2.1]; simp [World.alloc]
            · show (World.register _ _ _ _).1.indexed u = true ↔ _
              rw [World.register_keeps.2.2.2.2.2.1]; simp [World.alloc]

theorem indexed_iff (ops : List Op) (u : Ref) :
    (final genv ops).indexed u = true ↔
      ∃ a e b, ops = a ++ .setItem u e none :: b ∧ (final genv a).kind u = .explicitOut := by
  induction ops using List.reverseRecOn with
  | nil => simp [final, run, World.init]
  | append_singleton a op ih =>
    rw [final_snoc, step_indexed, ih]
    constructor
    · rintro (⟨a1, e, b, rfl, h1⟩ | ⟨e, rfl, h1⟩)
      · exact ⟨a1, e, b ++ [op], by simp, h1⟩
      · exact ⟨a, e, [], rfl, h1⟩
    · rintro ⟨a1, e, b, h, h1⟩
      rcases List.eq_nil_or_concat b with rfl | ⟨b', op', rfl⟩
      · obtain ⟨rfl, h3⟩ := List.append_inj' h rfl
        simp only [List.cons.injEq, and_true] at h3
        exact Or.inr ⟨e, h3, h1⟩
      · have h' : a ++ [op] = (a1 ++ .setItem u e none :: b') ++ [op'] := by rw [h]; simp
        obtain ⟨rfl, _⟩ := List.append_inj' h' rfl
        exact Or.inl ⟨a1, e, b', rfl, h1⟩

theorem assignedFrom_append (out : Ref) (a b : List Op) : ∀ w : World,
    assignedFrom genv out w (a ++ b) = assignedFrom genv out w a ++ assignedFrom genv out (run genv w a) b := by
  induction a with
  | nil => intro w; rfl
  | cons op a ih =>
    intro w
    show _ ++ assignedFrom genv out _ (a ++ b) = _
    rw [ih, ← List.append_assoc]; rfl

/-- The kind of an output does not change once a call mentions it. -/
theorem kind_at {a b : List Op} {op : Op} (hv : ValidFrom genv (World.init genv) (a ++ op :: b)) {u : Ref}
    (hu : u < (final genv a).next) : (final genv (a ++ op :: b)).kind u = (final genv a).kind u := by
  have hva := (validFrom_append genv a _ _).1 hv
  show (run genv _ (a ++ op :: b)).kind u = _
  rw [run_append]
  exact run_kind (op :: b) (run_ok a (worldOk_init genv) hva.1) hva.2 u hu

theorem wires_keys (hv : ValidFrom genv (World.init genv) ops) {out : Ref}
    (hk : (final genv ops).kind out = .explicitOut) :
    (wires genv ops).keys out = (assigned genv ops out).map Prod.snd := by
  have key : ∀ c, ops = c ++ ops.drop c.length → (wires genv c).keys out = (assigned genv c out).map Prod.snd := by
    intro c
    induction c using List.reverseRecOn with
    | nil => intro _; rfl
    | append_singleton c op ih =>
      intro e
      obtain ⟨b, hb⟩ : ∃ b, ops = c ++ op :: b :=
        ⟨ops.drop (c ++ [op]).length, by rw [List.append_assoc] at e; exact e⟩
      have ih := ih (by rw [hb]; simp)
      rw [wires_snoc]
      show _ = List.map _ (assignedFrom genv out _ (c ++ [op]))
      rw [assignedFrom_append, List.map_append, ← ih]
      show _ = _ ++ List.map Prod.snd (_ ++ [])
      rw [List.append_nil]
      cases op with
      | setItem o e' c' =>
        cases c' with
        | none =>
          rw [Wires.step_setItem]
          by_cases ho : o = out
          · subst ho
            subst hb
            have hva := (validFrom_append genv c _ _).1 hv
            rw [kind_at hv hva.2.1.1.2] at hk
            rw [if_pos hk]
            simp [final]
          · simp only [if_neg ho, List.map_nil, List.append_nil]
            split
            · exact Function.update_of_ne (Ne.symm ho) _ _
            · rfl
        | some err => simp [Wires.step]
      | define o e' =>
        rw [Wires.step_define]
        split <;> simp
      | _ => simp [Wires.step]
  exact key ops (by simp)

/-- An output that is defined and not by indexed assignment was given to `define`. -/
theorem defined_from (hv : ValidFrom genv (World.init genv) ops)
    (hs : SafeFrom genv (World.init genv) ops) {out : Ref}
    (hk : (final genv ops).kind out = .explicitOut) (hd : (final genv ops).defined out = true)
    (hi : (final genv ops).indexed out = false) :
    ∃ a e b, ops = a ++ .define out e :: b ∧ (step genv (final genv a) (.define out e)).2 = none := by
  rcases (run_defined_iff out ops (worldOk_init genv) hv hs).1 hd with h | ⟨a, op, b, e, h1, h2⟩
  · simp [World.init] at h
  · have hva := (validFrom_append genv a _ _).1 (e ▸ hv)
    cases op with
    | define o e' =>
      obtain rfl : o = out := h1
      exact ⟨a, e', b, e, h2⟩
    | setItem o e' c =>
      obtain rfl : o = out := h1
      exfalso
      subst e
      rw [kind_at hv hva.2.1.1.2] at hk
      have hc : c = none := by
        cases c with
        | none => rfl
        | some err =>
          exfalso
          unfold step at h2
          simp only at h2
          rw [if_neg (by simpa using hk)] at h2
          cases h2
      subst hc
      rw [(indexed_iff _ o).2 ⟨a, e', b, rfl, hk⟩] at hi
      cases hi
    | defineResidual o e' =>
      obtain rfl : o = out := h1
      exfalso
      subst e
      rw [kind_at hv hva.2.1.1.2] at hk
      unfold step at h2
      simp only at h2
      rw [if_pos (by rw [hk]; decide)] at h2
      cases h2
    | _ => exact h1.elim

/-! ## Values -/

theorem runAll_equation {V : String → Type} {comp : Ref → Comp V} {l : List Ref} (hnd : l.Nodup)
    (hown : OwnNames (· ∈ l) comp) (hreads : ∀ u ∈ l, ∀ n ∈ (comp u).reads, ReadOk comp l u n)
    (init : Store V) {u : Ref} (hu : u ∈ l) {c : Comp V} (hcu : comp u = c) {n : String}
    (hn : n ∈ c.writes) :
    runAll (l.map comp) init n = c.f (fun i => runAll (l.map comp) init c.reads[i]) n := by
  subst hcu
  refine eval_unique hown (runAll_eval hnd hown hreads init n) ?_
  exact Eval.computed (N := (· ∈ l)) u n hu hn _ fun i => runAll_eval hnd hown hreads init _

theorem runAll_outside {V : String → Type} {comp : Ref → Comp V} {l : List Ref} (hnd : l.Nodup)
    (hown : OwnNames (· ∈ l) comp) (hreads : ∀ u ∈ l, ∀ n ∈ (comp u).reads, ReadOk comp l u n)
    (init : Store V) {n : String} (hn : ∀ u ∈ l, n ∉ (comp u).writes) :
    runAll (l.map comp) init n = init n :=
  eval_unique hown (runAll_eval hnd hown hreads init n) (Eval.given n hn)

theorem args_from {u x : Ref} (h : x ∈ (wires genv ops).args u) :
    ∃ a args b, ops = a ++ .combine args :: b ∧ u = (final genv a).next ∧ x ∈ args := by
  induction ops using List.reverseRecOn with
  | nil => simp [Wires.run, Wires.init] at h
  | append_singleton a op ih =>
    have old : x ∈ (wires genv a).args u → ∃ c args b, a ++ [op] = c ++ .combine args :: b ∧
        u = (final genv c).next ∧ x ∈ args := by
      intro h
      obtain ⟨c, args, b, rfl, h1⟩ := ih h
      exact ⟨c, args, b ++ [op], by simp, h1⟩
    rw [wires_snoc] at h
    cases op with
    | combine args =>
      change x ∈ Function.update (wires genv a).args (final genv a).next args u at h
      by_cases hu : u = (final genv a).next
      · subst hu
        rw [Function.update_self] at h
        exact ⟨a, args, [], rfl, rfl, h⟩
      · rw [Function.update_of_ne hu] at h
        exact old h
    | define out e =>
      rw [Wires.step_define] at h
      split at h <;> exact old h
    | setItem out e c =>
      cases c with
      | none => rw [Wires.step_setItem] at h; split at h <;> exact old h
      | some err => exact old h
    | _ => exact old h

theorem decomp_from (hv : ValidFrom genv (World.init genv) ops) {d : Ref}
    (h : (final genv ops).kind d = .decomp) : ∃ x, FirstItem genv ops x d := by
  induction ops using List.reverseRecOn with
  | nil =>
    simp only [final, run, List.foldl_nil, World.init] at h
    split at h <;> cases h
  | append_singleton a op ih =>
    have hva := (validFrom_append genv a _ _).1 hv
    have oka := run_ok a (worldOk_init genv) hva.1
    rw [final_snoc] at h
    by_cases hold : (final genv a).kind d = .decomp
    · obtain ⟨x, a1, a2, rfl, h1⟩ := ih hva.1 hold
      exact ⟨x, a1, a2 ++ [op], by simp, h1⟩
    · rcases step_newKinds (env := genv) (w := final genv a) (op := op) d with h' | h'
      · exact absurd (h' ▸ h) hold
      · rw [h] at h'
        cases op with
        | getItem x =>
          obtain ⟨h1, h2, h3⟩ := getItem_next (genv := genv) (final genv a) x
          by_cases hlt : d < (final genv a).next
          · exact absurd (((step_keeps (env := genv) oka hva.2.1).2.1 d hlt).symm.trans h) hold
          by_cases hge : d < (step genv (final genv a) (.getItem x)).1.next
          · have hne : d ≠ (step genv (final genv a) (.getItem x)).1.next - 1 := by
              intro hd
              rw [hd, h2] at h; cases h
            by_cases hn : (final genv a).decomp x = none
            · rw [if_pos hn] at h1
              exact ⟨x, a, [], rfl, by omega, (decomp_iff genv a x).2.1 hn⟩
            · rw [if_neg hn] at h1
              omega
          · exfalso
            apply hold
            rw [← h]
            unfold step
            simp only
            cases hn : (final genv a).decomp x with
            | some d' =>
              simp only [hn]
              rw [if_neg (by simp [hn])] at h1
              show _ = Function.update (final genv a).kind (final genv a).next .item d
              rw [Function.update_of_ne (by omega)]
            | none =>
              simp only [Function.update_self]
              rw [if_pos hn] at h1
              show _ = Function.update (Function.update (final genv a).kind (final genv a).next .decomp)
                ((final genv a).next + 1) .item d
              rw [Function.update_of_ne (by omega), Function.update_of_ne (by omega)]
        | _ => simp [Op.newKinds] at h'

theorem program_reads (h : ProgramOk genv env m ops) (hold : OldNamesFree genv m ops)
    (hc : Arranged genv ops comps) (ho : InOrder genv m ops comps) {u : Ref} (hu : u ∈ comps) {n : String}
    (hn : n ∈ (compOf m (final genv ops) (wires genv ops) u).reads) :
    ReadOk (compOf m (final genv ops) (wires genv ops)) comps u n := by
  have hv := h.group.valid
  have ret : ∀ {a b : List Op} {op : Op} {x : Ref}, ops = a ++ op :: b → x ∈ op.uses →
      Returned genv ops x := by
    intro a b op x e hx
    have := (h.uses a op b e x hx).mono (b := op :: b)
    rwa [← e] at this
  cases hk : (final genv ops).kind u with
  | indep => rw [compOf_indep hk] at hn; simp at hn
  | root => unfold compOf at hn; rw [hk] at hn; simp at hn
  | input => unfold compOf at hn; rw [hk] at hn; simp at hn
  | implicitOut => unfold compOf at hn; rw [hk] at hn; simp at hn
  | item => unfold compOf at hn; rw [hk] at hn; simp at hn
  | expr =>
    rw [compOf_expr hk] at hn
    obtain ⟨x, hx, rfl⟩ := List.mem_map.1 hn
    obtain ⟨a, args, b, e, h1, h2⟩ := args_from hx
    exact read_ok h hc ho hu (ret e h2) (link_edge h e ⟨h1, h2⟩)
  | decomp =>
    rw [compOf_decomp hk, List.mem_singleton] at hn
    subst hn
    obtain ⟨x, hx⟩ := decomp_from hv hk
    rw [wires_whole hv (((decomp_iff genv ops x).1 u).2 hx)]
    obtain ⟨a, b, e, h1, h2⟩ := hx
    exact read_ok h hc ho hu (ret e (by simp [Op.uses])) (link_edge h e (Or.inl ⟨h2, h1, rfl⟩))
  | subsystem =>
    rw [compOf_subsystem hk] at hn
    obtain ⟨a, nm, b, e, rfl⟩ := subsystem_from hv hk
    rcases h.subReads a nm b e n hn with h1 | ⟨o, h1, h2, rfl⟩ | ⟨s, h1, h2⟩
    · exact unwritten_readOk h hc h1
    · exact hasVar_readOk h ho hu h2 (link_edge h e (Or.inl ⟨rfl, h1⟩))
    · have hva : ValidFrom genv (World.init genv) a := by
        have := hv
        rw [e] at this
        exact ((validFrom_append genv a _ _).1 this).1
      have hk : (final genv ops).kind s = .subsystem := by
        have := hv
        rw [e] at this ⊢
        exact addedIn_kind this h1
      exact sub_readOk hk h2 (ho.sub _ hu s
        (link_edge h e (Or.inl ⟨rfl, (madeOutput_iff hva s).1 (addedIn_root hva h1)⟩)) hk)
  | explicitOut =>
    cases hi : (final genv ops).indexed u with
    | true =>
      rw [compOf_indexed hk hi] at hn
      obtain ⟨a, e, b, e1, rfl, h2⟩ := wires_keys_mem hn
      rcases hold a u e b e1 with h3 | h3
      · rw [h3]
        exact read_ok h hc ho hu (ret e1 (by simp [Op.uses])) (link_edge h e1 ⟨rfl, rfl, h2⟩)
      · exact unwritten_readOk h hc h3
    | false =>
      rw [compOf_defined hk hi, List.mem_singleton] at hn
      subst hn
      obtain ⟨a, e, b, e1, h2⟩ := defined_from hv h.group.safe hk (hc.defined u hu hk) hi
      have : (wires genv ops).body u = e := by
        have := hv
        subst e1
        exact wires_body this h2
      rw [this]
      exact read_ok h hc ho hu (ret e1 (by simp [Op.uses])) (link_edge h e1 ⟨rfl, rfl, h2⟩)

theorem createOutput_of (hv : ValidFrom genv (World.init genv) ops) {u : Ref} (hr : Returned genv ops u)
    (hk : (final genv ops).kind u = .explicitOut) :
    ∃ a nm b, ops = a ++ .createOutput nm :: b ∧ u = (final genv a).next := by
  obtain ⟨a, op, b, rfl, h⟩ := hr
  obtain ⟨_, h3, h4⟩ := made_kind hv h
  rw [hk] at h3
  cases op with
  | createOutput nm => exact ⟨a, nm, b, rfl, h⟩
  | declareInput nm => simp only at h4; rw [← h3] at h4; cases h4
  | createIndep nm => simp only at h4; rw [← h3] at h4; cases h4
  | combine nm => simp only at h4; rw [← h3] at h4; cases h4
  | getItem nm => simp only at h4; rw [← h3] at h4; cases h4
  | _ => exact h4.elim

theorem indep_name {a b : List Op} {nm : String}
    (hv : ValidFrom genv (World.init genv) (a ++ .createIndep nm :: b)) :
    (final genv (a ++ .createIndep nm :: b)).name (final genv a).next = nm := by
  have e : a ++ .createIndep nm :: b = (a ++ [.createIndep nm]) ++ b := by simp
  obtain ⟨⟨_, h2⟩, _, _⟩ := made_kind (op := .createIndep nm) hv (u := (final genv a).next) rfl
  have hva := (validFrom_append genv a _ _).1 hv
  have oka := run_ok a (worldOk_init genv) hva.1
  have hroot : (final genv a).next ∈ (final genv (a ++ [.createIndep nm])).deps 0 := by
    rw [final_snoc]
    exact step_links hva.1 hva.2.1 ⟨rfl, Or.inl rfl⟩
  rw [e] at hv ⊢
  rw [name_kept hv h2]
  · rw [final_snoc]
    by_contra hne
    unfold step at hne
    simp only at hne
    have h3 : (match (final genv a).recent with
      | some s => ((final genv a).alloc .indep nm).addDep genv s (final genv a).next
      | none => (final genv a).alloc .indep nm).name (final genv a).next = nm := by
      cases hr : (final genv a).recent <;> exact Function.update_self ..
    exact hne (by_contra fun h4 => h4 (register_name (fun h5 => h4 (h5.trans h3))).2.2.2)
  · intro b1 nm' b2 hb
    left
    subst hb
    have hv1 : ValidFrom genv (World.init genv) ((a ++ [.createIndep nm]) ++ b1) :=
      ((validFrom_append genv ((a ++ [.createIndep nm]) ++ b1) (.registerOutput nm' _ :: b2) _).1
        (by simpa using hv)).1
    have hvb := (validFrom_append genv (a ++ [.createIndep nm]) b1 _).1 hv1
    have h3 : (final genv a).next ∈ (final genv ((a ++ [.createIndep nm]) ++ b1)).deps 0 := by
      show _ ∈ (run genv _ (_ ++ b1)).deps 0
      rw [run_append]
      exact run_root b1 (run_ok _ (worldOk_init genv) hvb.1) hvb.2 _ hroot
    show (World.register genv _ nm' _).2 ≠ none
    unfold World.register
    split
    · simp
    · simp

end

/-- The values `S` satisfy every equation the user wrote; variables nobody computes have the values
given from outside. An expression counts if some output of the group is built from it. -/
structure Satisfies {α : Type} (genv : GEnv) (m : Meaning α) (ops : List Op) (init S : String → α) :
    Prop where
  indep : ∀ a nm b, ops = a ++ .createIndep nm :: b → S nm = m.const (final genv a).next
  combine : ∀ a args b, ops = a ++ .combine args :: b →
    Relation.TransGen (BuiltFrom genv ops) 0 (final genv a).next →
    S ((final genv ops).name (final genv a).next) =
      m.op (final genv a).next (args.map fun x => S ((final genv ops).name x))
  getItem : ∀ a x b o, ops = a ++ .getItem x :: b → o + 1 = (final genv (a ++ [.getItem x])).next →
    Relation.TransGen (BuiltFrom genv ops) 0 o →
    S ((final genv ops).name o) = m.part o (S ((final genv ops).name x))
  define : ∀ a out e b, ops = a ++ .define out e :: b →
    (step genv (final genv a) (.define out e)).2 = none → (∀ e', Op.setItem out e' none ∉ ops) →
    S ((final genv ops).name out) = S ((final genv ops).name e)
  assign : ∀ a out e b, ops = a ++ .setItem out e none :: b → (final genv a).kind out = .explicitOut →
    S ((final genv ops).name out) =
      m.assemble out ((assigned genv ops out).map fun p => S ((final genv ops).name p.1))
  sub : ∀ s, AddedIn genv ops s → ∀ n ∈ m.subWrites s, S n = m.sub s ((m.subReads s).map S) n
  given : ∀ n, Unwritten genv m ops n → S n = init n

section
variable {genv : GEnv} {env : SetupEnv} {α : Type} {m : Meaning α} {ops : List Op} {comps : List Ref}

theorem program_fixed (h : ProgramOk genv env m ops) (hold : OldNamesFree genv m ops)
    (hc : Arranged genv ops comps) (ho : InOrder genv m ops comps) (init : Store fun _ => α) {u : Ref} (hu : u ∈ comps)
    {c : Comp fun _ => α} (hcu : compOf m (final genv ops) (wires genv ops) u = c) {n : String}
    (hn : n ∈ c.writes) :
    runAll (comps.map (compOf m (final genv ops) (wires genv ops))) init n =
      c.f (fun i => runAll (comps.map (compOf m (final genv ops) (wires genv ops))) init c.reads[i]) n :=
  runAll_equation hc.nodup
    (fun _ _ _ hu hv => program_own h.toProgramCore (comps_lt h.toProgramCore hc hu) (comps_lt h.toProgramCore hc hv))
    (fun _ hu _ => program_reads h hold hc ho hu) init hu hcu hn

theorem used_comps (h : ProgramCore genv env m ops) (hc : setupGroup env (final genv ops) = .ok comps)
    {u : Ref} (hu : Relation.TransGen (BuiltFrom genv ops) 0 u)
    (h1 : (final genv ops).kind u ≠ .implicitOut) {d : Ref} (hd : Writes genv ops d u)
    (hb : (final genv ops).built d = true) : d ∈ comps := by
  obtain ⟨_, hm⟩ := comps_iff h.group hc
  rcases needs_of_built h.group.valid h.group.safe hu with h2 | h2
  · exact (hm d).2 ⟨writes_needs h.group.valid h.group.safe hd h2, hb⟩
  · exact absurd h2 h1

theorem output_comps (h : ProgramCore genv env m ops) (hc : setupGroup env (final genv ops) = .ok comps)
    {u : Ref} (hr : Returned genv ops u) (hk : (final genv ops).kind u = .explicitOut) : u ∈ comps := by
  obtain ⟨_, hm⟩ := comps_iff h.group hc
  obtain ⟨a, nm, b, e, rfl⟩ := createOutput_of h.group.valid hr hk
  exact (hm _).2 ⟨.single (root_edge h.group.valid e ⟨rfl, rfl⟩), by simp [World.built, hk]⟩

/-- The equations, where indexed assignment uses the name its operand had at that time. -/
theorem fixed_values (h : ProgramCore genv env m ops)
    (hc : setupGroup env (final genv ops) = .ok comps) (S : String → α)
    (hS : ∀ u ∈ comps, ∀ n ∈ (compOf m (final genv ops) (wires genv ops) u).writes,
      S n = (compOf m (final genv ops) (wires genv ops) u).f
        (fun i => S (compOf m (final genv ops) (wires genv ops) u).reads[i]) n) :
    (∀ a nm b, ops = a ++ .createIndep nm :: b → S nm = m.const (final genv a).next) ∧
    (∀ a args b, ops = a ++ .combine args :: b →
      Relation.TransGen (BuiltFrom genv ops) 0 (final genv a).next →
      S ((final genv ops).name (final genv a).next) =
        m.op (final genv a).next (args.map fun x => S ((final genv ops).name x))) ∧
    (∀ a x b o, ops = a ++ .getItem x :: b → o + 1 = (final genv (a ++ [.getItem x])).next →
      Relation.TransGen (BuiltFrom genv ops) 0 o →
      S ((final genv ops).name o) = m.part o (S ((final genv ops).name x))) ∧
    (∀ a out e b, ops = a ++ .define out e :: b →
      (step genv (final genv a) (.define out e)).2 = none → (∀ e', Op.setItem out e' none ∉ ops) →
      S ((final genv ops).name out) = S ((final genv ops).name e)) ∧
    (∀ a out e b, ops = a ++ .setItem out e none :: b → (final genv a).kind out = .explicitOut →
      S ((final genv ops).name out) =
        m.assemble out ((assigned genv ops out).map fun p => S p.2)) ∧
    (∀ s, AddedIn genv ops s → ∀ n ∈ m.subWrites s, S n = m.sub s ((m.subReads s).map S) n) := by
  have hv := h.group.valid
  obtain ⟨_, hm⟩ := comps_iff h.group hc
  have ret : ∀ {a b : List Op} {op : Op} {x : Ref}, ops = a ++ op :: b → x ∈ op.uses →
      Returned genv ops x := by
    intro a b op x e hx
    have := (h.uses a op b e x hx).mono (b := op :: b)
    rwa [← e] at this
  have fixed : ∀ {u : Ref}, u ∈ comps → ∀ {c : Comp fun _ => α},
      compOf m (final genv ops) (wires genv ops) u = c → ∀ {n : String}, n ∈ c.writes →
      S n = c.f (fun i => S c.reads[i]) n := by
    intro u hu c hcu n hn
    subst hcu
    exact hS u hu n hn
  refine ⟨?_, ?_, ?_, ?_, ?_, ?_⟩
  · intro a nm b e
    have hk : (final genv ops).kind (final genv a).next = .indep := by
      subst e
      obtain ⟨_, h1, h2⟩ := made_kind (op := .createIndep nm) hv (u := (final genv a).next) rfl
      exact h1.trans h2
    have hu : (final genv a).next ∈ comps :=
      (hm _).2 ⟨.single (root_edge hv e ⟨rfl, Or.inl rfl⟩), by simp [World.built, hk]⟩
    have hn : (final genv ops).name (final genv a).next = nm := by
      subst e; exact indep_name hv
    exact fixed hu (compOf_indep hk) (by simp [hn])
  · intro a args b e hused
    have hk : (final genv ops).kind (final genv a).next = .expr := by
      subst e
      obtain ⟨_, h1, h2⟩ := made_kind (op := .combine args) hv (u := (final genv a).next) rfl
      exact h1.trans h2
    have hu : (final genv a).next ∈ comps :=
      used_comps h hc hused (by simp [hk]) (Or.inr ⟨by simp [hk], rfl⟩) (by simp [World.built, hk])
    rw [fixed hu (compOf_expr hk) (by simp)]
    have ha : (wires genv ops).args (final genv a).next = args := by
      subst e; exact wires_args hv
    simp only [ha]
    have := List.ofFn_getElem_eq_map (args.map (final genv ops).name) S
    rw [List.map_map] at this
    exact congrArg (m.op (final genv a).next) this
  · intro a x b o e ho hused
    obtain ⟨d, hd⟩ : ∃ d, FirstItem genv (a ++ [.getItem x]) x d := by
      refine ⟨((final genv a).decomp x).getD (final genv a).next, ((decomp_iff genv _ x).1 _).1 ?_⟩
      rw [final_snoc]; exact step_decomp_self
    have hio : ItemOf genv ops o d := ⟨a, x, b, e, ho, hd⟩
    obtain ⟨k1, k2⟩ := itemOf_kind hv hio
    have hu : d ∈ comps := used_comps h hc hused (by simp [k1]) (Or.inl hio) (by simp [World.built, k2])
    have hx : FirstItem genv ops x d := by
      obtain ⟨a1, a2, e1, h1⟩ := hd
      refine ⟨a1, a2 ++ b, ?_, h1⟩
      rw [e]
      have : a ++ .getItem x :: b = (a ++ [.getItem x]) ++ b := by simp
      rw [this, e1]; simp
    have hw : (wires genv ops).whole d = x := wires_whole hv (((decomp_iff genv ops x).1 d).2 hx)
    have hp : o ∈ (wires genv ops).parts d := (wires_parts ops d o).2 hio
    rw [fixed hu (compOf_decomp k2) (List.mem_map.2 ⟨o, hp, rfl⟩)]
    have hf : ((wires genv ops).parts d).find?
        (fun o' => (final genv ops).name o' == (final genv ops).name o) = some o := by
      cases hf : ((wires genv ops).parts d).find?
        (fun o' => (final genv ops).name o' == (final genv ops).name o) with
      | none =>
        have := List.find?_eq_none.1 hf o hp
        simp at this
      | some o' =>
        have h1 := List.mem_of_find?_eq_some hf
        have h2 := List.find?_some hf
        rw [h.own o' o (itemOf_hasVar hv ((wires_parts ops d o').1 h1)) (itemOf_hasVar hv hio)
          (by simpa using h2)]
    simp only [hf]
    show m.part o (S ((final genv ops).name ((wires genv ops).whole d))) = _
    rw [hw]
  · intro a out e b e1 hs hno
    obtain ⟨k1, _, _⟩ := define_defined hs
    have hva : ValidFrom genv (World.init genv) (a ++ .define out e :: b) := e1 ▸ hv
    have hlt : out < (final genv a).next := ((validFrom_append genv a _ _).1 hva).2.1.1.2
    have hk : (final genv ops).kind out = .explicitOut := by
      rw [e1, kind_at hva hlt]; exact k1
    have hi : (final genv ops).indexed out = false := by
      rw [Bool.eq_false_iff]
      intro hi
      obtain ⟨a', e', b', h1, _⟩ := (indexed_iff ops out).1 hi
      exact hno e' (by rw [h1]; simp)
    have hb : (wires genv ops).body out = e := by
      subst e1; exact wires_body hv hs
    rw [fixed (output_comps h hc (ret e1 (by simp [Op.uses])) hk) (compOf_defined hk hi) (by simp)]
    show S ((final genv ops).name ((wires genv ops).body out)) = _
    rw [hb]
  · intro a out e b e1 k1
    have hva : ValidFrom genv (World.init genv) (a ++ .setItem out e none :: b) := e1 ▸ hv
    have hlt : out < (final genv a).next := ((validFrom_append genv a _ _).1 hva).2.1.1.2
    have hk : (final genv ops).kind out = .explicitOut := by
      rw [e1, kind_at hva hlt]; exact k1
    have hi : (final genv ops).indexed out = true := (indexed_iff ops out).2 ⟨a, e, b, e1, k1⟩
    rw [fixed (output_comps h hc (ret e1 (by simp [Op.uses])) hk) (compOf_indexed hk hi) (by simp)]
    have := List.ofFn_getElem_eq_map ((wires genv ops).keys out) S
    refine (congrArg (m.assemble out) this).trans ?_
    rw [wires_keys hv hk, List.map_map]
    rfl
  · intro s hs n hn
    have hk : (final genv ops).kind s = .subsystem := by
      simpa using addedIn_kind (b := []) (by simpa using hv) hs
    have hu : s ∈ comps := (hm _).2 ⟨.single (addedIn_root hv hs), by simp [World.built, hk]⟩
    rw [fixed hu (compOf_subsystem hk) hn]
    have := List.ofFn_getElem_eq_map (m.subReads s) S
    exact congrArg (fun l => m.sub s l n) this

theorem program_values (h : ProgramOk genv env m ops) (hold : OldNamesFree genv m ops)
    (hc : setupGroup env (final genv ops) = .ok comps) (init S : String → α)
    (hS : S = runAll (comps.map (compOf m (final genv ops) (wires genv ops))) init) :
    (∀ a nm b, ops = a ++ .createIndep nm :: b → S nm = m.const (final genv a).next) ∧
    (∀ a args b, ops = a ++ .combine args :: b →
      Relation.TransGen (BuiltFrom genv ops) 0 (final genv a).next →
      S ((final genv ops).name (final genv a).next) =
        m.op (final genv a).next (args.map fun x => S ((final genv ops).name x))) ∧
    (∀ a x b o, ops = a ++ .getItem x :: b → o + 1 = (final genv (a ++ [.getItem x])).next →
      Relation.TransGen (BuiltFrom genv ops) 0 o →
      S ((final genv ops).name o) = m.part o (S ((final genv ops).name x))) ∧
    (∀ a out e b, ops = a ++ .define out e :: b →
      (step genv (final genv a) (.define out e)).2 = none → (∀ e', Op.setItem out e' none ∉ ops) →
      S ((final genv ops).name out) = S ((final genv ops).name e)) ∧
    (∀ a out e b, ops = a ++ .setItem out e none :: b → (final genv a).kind out = .explicitOut →
      S ((final genv ops).name out) =
        m.assemble out ((assigned genv ops out).map fun p => S p.2)) ∧
    (∀ s, AddedIn genv ops s → ∀ n ∈ m.subWrites s, S n = m.sub s ((m.subReads s).map S) n) ∧
    ∀ n, Unwritten genv m ops n → S n = init n := by
  have hv := h.group.valid
  obtain ⟨h1, h2, h3, h4, h5, h6⟩ := fixed_values h.toProgramCore hc S fun u hu n hn => by
    rw [hS]; exact program_fixed h hold (arranged_setup h.group hc) (inOrder_setup h hc) init hu rfl hn
  refine ⟨h1, h2, h3, h4, h5, h6, ?_⟩
  · intro n hn
    rw [hS]
    exact runAll_outside (comps_iff h.group hc).1
      (fun _ _ _ hu hv => program_own h.toProgramCore (comps_lt h.toProgramCore (arranged_setup h.group hc) hu) (comps_lt h.toProgramCore (arranged_setup h.group hc) hv))
      (fun _ hu _ => program_reads h hold (arranged_setup h.group hc) (inOrder_setup h hc) hu) init
      fun u hu => unwritten_writes hv hn (comps_lt h.toProgramCore (arranged_setup h.group hc) hu)

theorem mem_assignedFrom {out : Ref} {p : Ref × String} (c : List Op) : ∀ {w : World},
    p ∈ assignedFrom genv out w c →
    ∃ a b, c = a ++ .setItem out p.1 none :: b ∧ p.2 = (run genv w a).name p.1 := by
  induction c with
  | nil => intro w h; simp [assignedFrom] at h
  | cons op c ih =>
    intro w h
    rcases List.mem_append.1 h with h1 | h1
    · cases op with
      | setItem o e c' =>
        cases c' with
        | none =>
          simp only at h1
          split at h1
          · rename_i ho
            subst ho
            rw [List.mem_singleton] at h1
            subst h1
            exact ⟨[], c, rfl, rfl⟩
          · simp at h1
        | some err => simp at h1
      | _ => simp at h1
    · obtain ⟨a, b, rfl, h2⟩ := ih h1
      exact ⟨op :: a, b, rfl, h2⟩

theorem registeredFirst_names (hv : ValidFrom genv (World.init genv) ops) (hr : RegisteredFirst ops)
    {a b : List Op} {out e : Ref} (h : ops = a ++ .setItem out e none :: b) :
    (final genv ops).name e = (final genv a).name e := by
  have h1 := hr a out e b h
  subst h
  have hva := (validFrom_append genv a _ _).1 hv
  refine name_kept hv hva.2.1.2.2 ?_
  intro b1 nm b2 hb
  exfalso
  cases b1 with
  | nil => simp at hb
  | cons op b1 =>
    simp only [List.cons_append, List.cons.injEq] at hb
    exact h1 nm (by rw [hb.2]; simp)

/-- **C12** for programs: running the components in the order chosen by `setup` gives values that satisfy
every equation the user wrote. -/
theorem c12_program (h : ProgramOk genv env m ops) (hr : RegisteredFirst ops)
    (hc : setupGroup env (final genv ops) = .ok comps) (init : String → α) :
    Satisfies genv m ops init
      (runAll (comps.map (compOf m (final genv ops) (wires genv ops))) (init : Store fun _ => α)) := by
  obtain ⟨h1, h2, h3, h4, h5, h6, h7⟩ := program_values h
    (fun a out e b e1 => Or.inl (registeredFirst_names h.group.valid hr e1).symm) hc init _ rfl
  refine ⟨h1, h2, h3, h4, ?_, h6, h7⟩
  intro a out e b e1 k1
  rw [h5 a out e b e1 k1]
  congr 1
  refine List.map_congr_left fun p hp => ?_
  obtain ⟨a', b', e2, e3⟩ := mem_assignedFrom ops hp
  rw [registeredFirst_names h.group.valid hr e2, e3]

/-- **C64**, what holds: if no expression is registered after it has been assigned to a part of an output,
every use of an expression, in operations, parts, definitions and assignments, is a use of the variable it
is registered as. Missing: expressions that are registered after such an assignment, see below. -/
theorem c64_registered_first_partial (h : ProgramOk genv env m ops) (hr : RegisteredFirst ops)
    (hc : setupGroup env (final genv ops) = .ok comps) (init S : String → α)
    (hS : S = runAll (comps.map (compOf m (final genv ops) (wires genv ops))) init) {a b : List Op}
    {out e : Ref} (he : ops = a ++ .setItem out e none :: b) (hk : (final genv a).kind out = .explicitOut) :
    S ((final genv ops).name out) =
      m.assemble out ((assigned genv ops out).map fun p => S ((final genv ops).name p.1)) := by
  subst hS
  exact (c12_program h hr hc init).assign a out e b he hk

/-- **C64** is violated for indexed assignment. An expression that is registered under another name
after it was assigned to a part of an output is not used there: the output gets, in its place, the value
that the old name has from outside. -/
theorem c64_renamed_after_assignment (h : ProgramOk genv env m ops) (hold : OldNamesFree genv m ops)
    (hc : setupGroup env (final genv ops) = .ok comps) (init S : String → α)
    (hS : S = runAll (comps.map (compOf m (final genv ops) (wires genv ops))) init)
    {a b : List Op} {out e : Ref} (he : ops = a ++ .setItem out e none :: b)
    (hk : (final genv a).kind out = .explicitOut) :
    S ((final genv ops).name out) = m.assemble out ((assigned genv ops out).map fun p =>
      if p.2 = (final genv ops).name p.1 then S ((final genv ops).name p.1) else init p.2) := by
  obtain ⟨_, _, _, _, h5, _, h7⟩ := program_values h hold hc init S hS
  rw [h5 a out e b he hk]
  congr 1
  refine List.map_congr_left fun p hp => ?_
  obtain ⟨a', b', e2, e3⟩ := mem_assignedFrom ops hp
  split
  · rename_i h8; rw [h8]
  · rename_i h8
    rcases hold a' out p.1 b' e2 with h9 | h9
    · exact absurd (e3.trans h9) h8
    · rw [e3]; exact h7 _ h9

end

/-! ## Programs that satisfy the hypotheses -/

theorem split_cases {ops a b : List Op} {op : Op} (h : ops = a ++ op :: b) :
    ∃ i, i < ops.length ∧ a = ops.take i ∧ ops[i]? = some op ∧ b = ops.drop (i + 1) := by
  refine ⟨a.length, ?_, ?_, ?_, ?_⟩ <;> subst h <;> simp

theorem not_reach {g : Graph} {x y : Ref} (l : List Ref) (h : ∀ u ∈ l, ∀ v ∈ g u, v ∈ l) (hx : x ∈ l)
    (hy : y ∉ l) : ¬ Reach g x y := by
  intro hr
  apply hy
  clear hy
  induction hr with
  | refl => exact hx
  | tail _ h1 ih => exact h _ ih _ h1

def progGEnv : GEnv := ⟨demoEnv.ov, 50, fun u => String.ofList (List.replicate u '_')⟩

/-- An independent variable (1), `y = f(x)` (2), a subsystem (3) that computes `z` from `y`, the input `z`
(4), an output (5), `g(z, y)` (6), a part of it (8, computed by 7) assigned to the output, another output (9)
defined by the whole (the leaf for feedback, here unused, is 10). -/
def progOps : List Op :=
  [.createIndep "x", .combine [1], .registerOutput "y" 2, .addSubsystem "s", .declareInput "z",
   .createOutput "f", .combine [4, 2], .getItem 6, .setItem 5 8 none, .createOutput "g", .define 9 6]

def progMeaning : Meaning Int where
  const _ := 3
  op u l := if u = 2 then 2 * l.sum else l.foldl (· - ·) 0
  part _ x := x + 10
  assemble _ l := l.sum
  subReads _ := ["y"]
  subWrites _ := ["z"]
  sub _ l _ := l.sum * l.sum

theorem prog_groupOk : GroupOk progGEnv demoEnv progOps :=
  groupOk_of_check (by decide) ⟨trivial, trivial, trivial, trivial, trivial, trivial, trivial, trivial,
    not_reach [8, 7, 6, 4, 2, 3, 1] (by decide) (by decide) (by decide), trivial, (show _ ≠ _ by decide),
    trivial⟩ (by decide) 8 pyOrder_ascending (by decide)

theorem prog_added {s : Ref} (h : AddedIn progGEnv progOps s) : s = 3 := by
  obtain ⟨a, nm, b, e, rfl⟩ := h
  obtain ⟨i, hi, rfl, h1, _⟩ := split_cases e
  change i < 11 at hi
  interval_cases i <;> first | (simp [progOps] at h1; done) | decide

theorem prog_ok : ProgramOk progGEnv demoEnv progMeaning progOps where
  group := prog_groupOk
  uses := by
    intro a op b e u hu
    obtain ⟨i, hi, rfl, h1, _⟩ := split_cases e
    change i < 11 at hi
    have r1 : ∀ k, Returned progGEnv (progOps.take (k + 1)) 1 := fun k =>
      ⟨[], .createIndep "x", _, rfl, by show _ = _; decide⟩
    have r2 : ∀ k, Returned progGEnv (progOps.take (k + 2)) 2 := fun k =>
      ⟨progOps.take 1, .combine [1], _, rfl, by show _ = _; decide⟩
    have r4 : ∀ k, Returned progGEnv (progOps.take (k + 5)) 4 := fun k =>
      ⟨progOps.take 4, .declareInput "z", _, rfl, by show _ = _; decide⟩
    have r5 : ∀ k, Returned progGEnv (progOps.take (k + 6)) 5 := fun k =>
      ⟨progOps.take 5, .createOutput "f", _, rfl, by show _ = _; decide⟩
    have r6 : ∀ k, Returned progGEnv (progOps.take (k + 7)) 6 := fun k =>
      ⟨progOps.take 6, .combine [4, 2], _, rfl, by show _ = _; decide⟩
    have r8 : ∀ k, Returned progGEnv (progOps.take (k + 8)) 8 := fun k =>
      ⟨progOps.take 7, .getItem 6, _, rfl, by show _ = _; decide⟩
    have r9 : ∀ k, Returned progGEnv (progOps.take (k + 10)) 9 := fun k =>
      ⟨progOps.take 9, .createOutput "g", _, rfl, by show _ = _; decide⟩
    interval_cases i <;> simp [progOps] at h1 <;> subst h1 <;> simp [Op.uses] at hu
    · subst hu; exact r1 0
    · subst hu; exact r2 0
    · rcases hu with rfl | rfl
      · exact r4 1
      · exact r2 4
    · subst hu; exact r6 0
    · rcases hu with rfl | rfl
      · exact r5 2
      · exact r8 0
    · rcases hu with rfl | rfl
      · exact r9 0
      · exact r6 3
  feedback := by
    intro a out e b h
    obtain ⟨i, hi, rfl, h1, _⟩ := split_cases h
    change i < 11 at hi
    interval_cases i <;> simp [progOps] at h1
    obtain ⟨rfl, rfl⟩ := h1
    exact not_reach [6, 4, 2, 3, 1] (by decide) (by decide) (by decide)
  own := by
    rintro u v ⟨hu, hu'⟩ ⟨hv, hv'⟩
    change u < 11 at hu
    change v < 11 at hv
    revert hu' hv'
    interval_cases u <;> interval_cases v <;> decide
  subs := by
    intro s n hs hn
    obtain rfl := prog_added hs
    obtain rfl : n = "z" := by simpa [progMeaning] using hn
    refine ⟨?_, fun s' h' _ => (prog_added h').symm⟩
    rintro u ⟨hu, hu'⟩
    change u < 11 at hu
    revert hu'
    interval_cases u <;> decide
  inputs := by
    intro a nm b h
    obtain ⟨i, hi, rfl, h1, _⟩ := split_cases h
    change i < 11 at hi
    interval_cases i <;> simp [progOps] at h1
    subst h1
    refine ⟨?_, ?_⟩
    · rintro u ⟨hu, hu'⟩
      change u < 11 at hu
      revert hu'
      interval_cases u <;> decide
    · intro s hs _
      obtain rfl := prog_added hs
      exact ⟨progOps.take 3, "s", [], rfl, by decide⟩
  subReads := by
    intro a nm b h n hn
    obtain ⟨i, hi, rfl, h1, _⟩ := split_cases h
    change i < 11 at hi
    obtain rfl : n = "y" := by simpa [progMeaning] using hn
    interval_cases i <;> simp [progOps] at h1
    subst h1
    refine Or.inr (Or.inl ⟨2, ⟨progOps.take 2, .registerOutput "y" 2, [], rfl, ?_⟩, ⟨by decide, by decide⟩,
      by decide⟩)
    exact ⟨rfl, by decide⟩

theorem prog_first : RegisteredFirst progOps := by
  intro a out e b h nm
  obtain ⟨i, hi, rfl, h1, rfl⟩ := split_cases h
  change i < 11 at hi
  interval_cases i <;> simp [progOps] at h1
  simp [progOps]

/-- The values: `x = 3`, `y = 2 * 3 = 6`, `z = 36`, `0 - 36 - 6 = -42`, its part `-32`. -/
example : setupGroup demoEnv (final progGEnv progOps) = .ok [1, 2, 3, 6, 7, 5, 9] ∧
    runAll ([1, 2, 3, 6, 7, 5, 9].map (compOf progMeaning (final progGEnv progOps) (wires progGEnv progOps)))
      (fun _ => 0) "f" = -32 ∧
    runAll ([1, 2, 3, 6, 7, 5, 9].map (compOf progMeaning (final progGEnv progOps) (wires progGEnv progOps)))
      (fun _ => 0) "g" = -42 := by decide

/-- An independent variable (1), an output (2), an expression (3) assigned to the output and then registered
as `y`. -/
def staleOps : List Op :=
  [.createIndep "x", .createOutput "f", .combine [1], .setItem 2 3 none, .registerOutput "y" 3]

/-- The same program, but the expression is registered before it is assigned. -/
def freshOps : List Op :=
  [.createIndep "x", .createOutput "f", .combine [1], .registerOutput "y" 3, .setItem 2 3 none]

theorem stale_added {s : Ref} : ¬ AddedIn progGEnv staleOps s := by
  rintro ⟨a, nm, b, e, rfl⟩
  obtain ⟨i, hi, rfl, h1, _⟩ := split_cases e
  change i < 5 at hi
  interval_cases i <;> simp [staleOps] at h1

theorem stale_ok : ProgramOk progGEnv demoEnv progMeaning staleOps where
  group := groupOk_of_check (by decide) ⟨trivial, trivial, trivial,
    not_reach [3, 1] (by decide) (by decide) (by decide), trivial, trivial⟩ (by decide) 8
    pyOrder_ascending (by decide)
  uses := by
    intro a op b e u hu
    obtain ⟨i, hi, rfl, h1, _⟩ := split_cases e
    change i < 5 at hi
    interval_cases i <;> simp [staleOps] at h1 <;> subst h1 <;> simp [Op.uses] at hu
    · subst hu; exact ⟨[], .createIndep "x", _, rfl, by show _ = _; decide⟩
    · rcases hu with rfl | rfl
      · exact ⟨staleOps.take 1, .createOutput "f", _, rfl, by show _ = _; decide⟩
      · exact ⟨staleOps.take 2, .combine [1], _, rfl, by show _ = _; decide⟩
    · subst hu; exact ⟨staleOps.take 2, .combine [1], _, rfl, by show _ = _; decide⟩
  feedback := by
    intro a out e b h
    obtain ⟨i, hi, rfl, h1, _⟩ := split_cases h
    change i < 5 at hi
    interval_cases i <;> simp [staleOps] at h1
  own := by
    rintro u v ⟨hu, hu'⟩ ⟨hv, hv'⟩
    change u < 4 at hu
    change v < 4 at hv
    revert hu' hv'
    interval_cases u <;> interval_cases v <;> decide
  subs := fun s n hs => absurd hs stale_added
  inputs := by
    intro a nm b h
    obtain ⟨i, hi, rfl, h1, _⟩ := split_cases h
    change i < 5 at hi
    interval_cases i <;> simp [staleOps] at h1
  subReads := by
    intro a nm b h
    obtain ⟨i, hi, rfl, h1, _⟩ := split_cases h
    change i < 5 at hi
    interval_cases i <;> simp [staleOps] at h1

theorem stale_old : OldNamesFree progGEnv progMeaning staleOps := by
  intro a out e b h
  obtain ⟨i, hi, rfl, h1, _⟩ := split_cases h
  change i < 5 at hi
  interval_cases i <;> simp [staleOps] at h1
  obtain ⟨rfl, rfl⟩ := h1
  refine Or.inr ⟨?_, fun s hs => absurd hs stale_added⟩
  rintro u ⟨hu, hu'⟩
  change u < 4 at hu
  revert hu'
  interval_cases u <;> decide

/-- **C64** is violated: a program in the sense of C12 whose values do not satisfy the equation for its
output. Here `f[0] = e` and `e = -3`, but `f` is the value 7 of a variable that does not occur in the
program. If `e` is registered before the assignment, `f` is `-3`. -/
theorem c64_violated :
    ProgramOk progGEnv demoEnv progMeaning staleOps ∧
    setupGroup demoEnv (final progGEnv staleOps) = .ok [1, 3, 2] ∧
    ¬ Satisfies progGEnv progMeaning staleOps (fun _ => 7) (runAll ([1, 3, 2].map
      (compOf progMeaning (final progGEnv staleOps) (wires progGEnv staleOps)))
      ((fun _ => 7 : String → Int) : Store fun _ => Int)) ∧
    (let S := runAll ([1, 3, 2].map
      (compOf progMeaning (final progGEnv staleOps) (wires progGEnv staleOps)))
      ((fun _ => 7 : String → Int) : Store fun _ => Int)
     S "y" = -3 ∧ S "f" = 7) ∧
    setupGroup demoEnv (final progGEnv freshOps) = .ok [1, 3, 2] ∧
    (let S := runAll ([1, 3, 2].map
      (compOf progMeaning (final progGEnv freshOps) (wires progGEnv freshOps)))
      ((fun _ => 7 : String → Int) : Store fun _ => Int)
     S "y" = -3 ∧ S "f" = -3) := by
  refine ⟨stale_ok, by decide, ?_, by decide, by decide, by decide⟩
  intro h
  have := h.assign (staleOps.take 3) 2 3 (staleOps.drop 4) rfl (by decide)
  revert this
  decide

end OM
