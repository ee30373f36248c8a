import Verif.Lemmas.Build

/-! # Which call records which dependency -/

namespace OM
open Spec

theorem final_snoc (genv : GEnv) (a : List Op) (op : Op) :
    final genv (a ++ [op]) = (step genv (final genv a) op).1 := by
  simp [final, run]

theorem final_split (genv : GEnv) (a b : List Op) (op : Op) :
    final genv (a ++ op :: b) = run genv (final genv (a ++ [op])) b := by
  simp [final, run]

/-! ## The most recent subsystem and the decompositions, in terms of the history -/

/-- `s` is the subsystem added last. -/
def LastSubsystem (genv : GEnv) (a : List Op) (s : Ref) : Prop :=
  ∃ a1 nm a2, a = a1 ++ .addSubsystem nm :: a2 ∧ s = (final genv a1).next ∧
    ∀ op ∈ a2, ∀ nm, op ≠ .addSubsystem nm

theorem recent_iff (genv : GEnv) (a : List Op) (s : Ref) :
    (final genv a).recent = some s ↔ LastSubsystem genv a s := by
  induction a using List.reverseRecOn generalizing s with
  | nil => simp [final, run, World.init, LastSubsystem]
  | append_singleton a op ih =>
    rw [final_snoc]
    by_cases hop : ∃ nm, op = .addSubsystem nm
    · obtain ⟨nm, rfl⟩ := hop
      have : (step genv (final genv a) (.addSubsystem nm)).1.recent = some (final genv a).next := rfl
      rw [this]
      constructor
      · intro h
        exact ⟨a, nm, [], rfl, (Option.some.inj h).symm, by simp⟩
      · rintro ⟨a1, nm', a2, e, rfl, h⟩
        rcases List.eq_nil_or_concat a2 with rfl | ⟨a2', op', rfl⟩
        · obtain ⟨rfl, _⟩ := List.append_inj' e rfl
          rfl
        · exfalso
          have e' : a ++ [Op.addSubsystem nm] = (a1 ++ .addSubsystem nm' :: a2') ++ [op'] := by
            rw [e]; simp
          obtain ⟨_, h2⟩ := List.append_inj' e' rfl
          simp only [List.cons.injEq, and_true] at h2
          exact h op' (by simp) nm h2.symm
    · have hop' : ∀ nm, op ≠ .addSubsystem nm := fun nm h => hop ⟨nm, h⟩
      rw [step_recent hop', ih]
      constructor
      · rintro ⟨a1, nm, a2, rfl, rfl, h⟩
        refine ⟨a1, nm, a2 ++ [op], by simp, rfl, ?_⟩
        intro op' ho
        rcases List.mem_append.1 ho with ho | ho
        · exact h op' ho
        · rw [List.mem_singleton.1 ho]; exact hop'
      · rintro ⟨a1, nm', a2, e, rfl, h⟩
        rcases List.eq_nil_or_concat a2 with rfl | ⟨a2', op', rfl⟩
        · obtain ⟨_, h2⟩ := List.append_inj' e rfl
          simp only [List.cons.injEq, and_true] at h2
          exact absurd h2 (hop' nm')
        · have e' : a ++ [op] = (a1 ++ .addSubsystem nm' :: a2') ++ [op'] := by
            rw [e]; simp
          obtain ⟨rfl, _⟩ := List.append_inj' e' rfl
          exact ⟨a1, nm', a2', rfl, rfl, fun o ho => h o (by simp [ho])⟩

theorem step_decomp {env : GEnv} {w : World} {op : Op} {x : Ref} (h : op ≠ .getItem x) :
    (step env w op).1.decomp x = w.decomp x := by
  have hfold : ∀ (u : Ref) (args : List Ref) (w' : World),
      (args.foldl (fun w' a => w'.addDep env u a) w').decomp = w'.decomp := by
    intro u args
    induction args with
    | nil => intro w'; rfl
    | cons a args ih => intro w'; rw [List.foldl_cons, ih]; rfl
  cases op with
  | addSubsystem nm =>
    show (World.decomp (List.foldl _ _ (w.deps 0))) x = _
    rw [hfold]; rfl
  | declareInput nm => unfold step; cases hr : w.recent <;> simp [World.addDep, World.alloc]
  | createIndep nm =>
    unfold step
    cases hr : w.recent with
    | none => simp only; rw [World.register_keeps.2.2.2.1]; rfl
    | some s => simp only; rw [World.register_keeps.2.2.2.1]; rfl
  | createOutput nm => rfl
  | createImplicit nm => rfl
  | combine args =>
    show (World.decomp (List.foldl _ _ args)) x = _
    rw [hfold]; rfl
  | getItem y =>
    have hxy : x ≠ y := fun e => h (by rw [e])
    unfold step
    simp only
    cases hd : w.decomp y with
    | some d => simp only [hd]; rfl
    | none =>
      simp only [Function.update_self]
      show Function.update w.decomp y (some w.next) x = _
      rw [Function.update_of_ne hxy]
  | registerOutput nm y =>
    show (World.register env w nm y).1.decomp x = _
    rw [World.register_keeps.2.2.2.1]
  | define out e =>
    unfold step; simp only
    split
    · rfl
    · split
      · rfl
      · split
        · rfl
        · split <;> rfl
  | setItem out e c =>
    unfold step; simp only
    split
    · rfl
    · cases c <;> rfl
  | defineResidual out e =>
    unfold step; simp only
    split
    · rfl
    · split
      · rfl
      · split
        · rfl
        · split
          · rfl
          · split
            · rw [World.register_keeps.2.2.2.1]; rfl
            · show (World.register _ _ _ _).1.decomp x = _
              rw [World.register_keeps.2.2.2.1]; rfl

theorem step_decomp_self {env : GEnv} {w : World} {x : Ref} :
    (step env w (.getItem x)).1.decomp x = some ((w.decomp x).getD w.next) := by
  unfold step
  simp only
  cases hd : w.decomp x with
  | some d => simp only [hd]; exact hd
  | none => simp only [Function.update_self]; exact Function.update_self ..

/-- `d` is the object made by the first use of `x[...]`. -/
def FirstItem (genv : GEnv) (a : List Op) (x d : Ref) : Prop :=
  ∃ a1 a2, a = a1 ++ .getItem x :: a2 ∧ d = (final genv a1).next ∧ .getItem x ∉ a1

theorem decomp_iff (genv : GEnv) (a : List Op) (x : Ref) :
    (∀ d, (final genv a).decomp x = some d ↔ FirstItem genv a x d) ∧
    ((final genv a).decomp x = none ↔ .getItem x ∉ a) := by
  induction a using List.reverseRecOn with
  | nil => simp [final, run, World.init, FirstItem]
  | append_singleton a op ih =>
    have hlast : ∀ d, FirstItem genv (a ++ [op]) x d ↔
        FirstItem genv a x d ∨ (op = .getItem x ∧ .getItem x ∉ a ∧ d = (final genv a).next) := by
      intro d
      constructor
      · rintro ⟨a1, a2, e, rfl, h⟩
        rcases List.eq_nil_or_concat a2 with rfl | ⟨a2', op', rfl⟩
        · obtain ⟨rfl, h2⟩ := List.append_inj' e rfl
          simp only [List.cons.injEq, and_true] at h2
          exact Or.inr ⟨h2, h, rfl⟩
        · have e' : a ++ [op] = (a1 ++ .getItem x :: a2') ++ [op'] := by
            rw [e]; simp
          obtain ⟨rfl, _⟩ := List.append_inj' e' rfl
          exact Or.inl ⟨a1, a2', rfl, rfl, h⟩
      · rintro (⟨a1, a2, rfl, rfl, h⟩ | ⟨rfl, h, rfl⟩)
        · exact ⟨a1, a2 ++ [op], by simp, rfl, h⟩
        · exact ⟨a, [], rfl, rfl, h⟩
    rw [final_snoc]
    by_cases hop : op = .getItem x
    · subst hop
      rw [step_decomp_self]
      refine ⟨fun d => ?_, by simp⟩
      rw [hlast, ← ih.1, ← ih.2]
      cases hd : (final genv a).decomp x with
      | none => simp [eq_comm]
      | some d' => simp
    · rw [step_decomp hop]
      refine ⟨fun d => ?_, ?_⟩
      · rw [hlast, ih.1]; simp [hop]
      · rw [ih.2]; simp [Ne.symm hop]

/-! ## Dependencies made by a call -/

/-- The call `op`, made after the calls `a`, builds `u` from `v`: `v` is an operand of the expression
`u`, or `u` is a part of `v`, or `v` was assigned to the output `u`, or `u` and `v` are ordered by a
subsystem, or `u` is the group (object 0) and `v` an output of it. -/
def Op.Links (genv : GEnv) (a : List Op) (u v : Ref) : Op → Prop
  | .declareInput _ => u = (final genv a).next ∧ LastSubsystem genv a v
  | .createIndep _ => v = (final genv a).next ∧ (u = 0 ∨ LastSubsystem genv a u)
  | .createOutput _ => u = 0 ∧ v = (final genv a).next
  | .createImplicit _ => False
  | .combine args => u = (final genv a).next ∧ v ∈ args
  | .getItem x =>
      (.getItem x ∉ a ∧ u = (final genv a).next ∧ v = x) ∨
      (.getItem x ∉ a ∧ u = (final genv a).next + 1 ∧ v = (final genv a).next) ∨
      (u = (final genv a).next ∧ FirstItem genv a x v)
  | .registerOutput nm x =>
      u = 0 ∧ v = x ∧ (step genv (final genv a) (.registerOutput nm x)).2 = none
  | .addSubsystem _ =>
      (u = (final genv a).next ∧ MadeOutput genv (World.init genv) v a) ∨
      (u = 0 ∧ v = (final genv a).next)
  | .define out e => u = out ∧ v = e ∧ (step genv (final genv a) (.define out e)).2 = none
  | .setItem out e _ => u = out ∧ v = e ∧ (final genv a).kind out = .explicitOut
  | .defineResidual out e =>
      u = 0 ∧ v = e ∧ (step genv (final genv a) (.defineResidual out e)).2 = none

/-- The object `v` is an input without dependencies. -/
def World.IsLeaf (w : World) (v : Ref) : Prop := v < w.next ∧ w.kind v = .input ∧ w.deps v = []

/-- The call makes `u`, which used the output being defined, use a new input `v` instead, which has no
dependencies. -/
def Op.Feeds (genv : GEnv) (a : List Op) (u v : Ref) : Op → Prop
  | .define out e => v = (final genv a).next ∧ out ∈ (final genv a).deps u ∧
      (step genv (final genv a) (.define out e)).1.IsLeaf v
  | .defineResidual out e => v = (final genv a).next ∧ out ∈ (final genv a).deps u ∧
      (step genv (final genv a) (.defineResidual out e)).1.IsLeaf v
  | _ => False

/-! ## Kinds of new objects -/

def Op.newKinds : Op → List Kind
  | .declareInput _ => [.input]
  | .createIndep _ => [.indep]
  | .createOutput _ => [.explicitOut]
  | .createImplicit _ => [.implicitOut]
  | .combine _ => [.expr]
  | .getItem _ => [.decomp, .item]
  | .registerOutput _ _ => []
  | .addSubsystem _ => [.subsystem]
  | .define _ _ => [.input]
  | .setItem _ _ _ => []
  | .defineResidual _ _ => [.input]

theorem step_newKinds {env : GEnv} {w : World} {op : Op} (u : Ref) :
    (step env w op).1.kind u = w.kind u ∨ (step env w op).1.kind u ∈ op.newKinds := by
  have halloc : ∀ (w' : World) k nm, (w'.alloc k nm).kind u = w'.kind u ∨ (w'.alloc k nm).kind u = k := by
    intro w' k nm
    by_cases hn : u = w'.next
    · subst hn; right; simp [World.alloc]
    · left; simp [World.alloc, Function.update_of_ne hn]
  have hfold : ∀ (u : Ref) (args : List Ref) (w' : World),
      (args.foldl (fun w' a => w'.addDep env u a) w').kind = w'.kind := by
    intro u args
    induction args with
    | nil => intro w'; rfl
    | cons a args ih => intro w'; rw [List.foldl_cons, ih]; rfl
  have one : ∀ (x k0 k : Kind), x = k0 ∨ x = k → x = k0 ∨ x ∈ [k] := by
    intro x k0 k h; simpa using h
  cases op with
  | declareInput nm => unfold step; cases hr : w.recent <;> exact one _ _ _ (halloc w .input nm)
  | createIndep nm =>
    unfold step
    cases hr : w.recent with
    | none => simp only; rw [World.register_keeps.2.1]; exact one _ _ _ (halloc w .indep nm)
    | some s => simp only; rw [World.register_keeps.2.1]; exact one _ _ _ (halloc w .indep nm)
  | createOutput nm => exact one _ _ _ (halloc w .explicitOut nm)
  | createImplicit nm => exact one _ _ _ (halloc w .implicitOut nm)
  | combine args =>
    show (World.kind (List.foldl _ _ args)) u = _ ∨ (World.kind (List.foldl _ _ args)) u ∈ _
    rw [hfold]
    exact one _ _ _ (halloc w .expr _)
  | getItem x =>
    unfold step
    simp only
    cases hd : w.decomp x with
    | some d =>
      simp only [hd]
      exact (halloc w .item (env.autoName w.next)).imp id fun h => by
        show (w.alloc .item (env.autoName w.next)).kind u ∈ _
        rw [h]; simp [Op.newKinds]
    | none =>
      simp only [Function.update_self]
      rcases halloc (w.alloc .decomp ("decompose_" ++ w.name x)) .item (env.autoName (w.next + 1)) with
        h | h
      · rcases halloc w .decomp ("decompose_" ++ w.name x) with h' | h'
        · exact Or.inl (h.trans h')
        · right
          show ((w.alloc .decomp ("decompose_" ++ w.name x)).alloc .item
            (env.autoName (w.next + 1))).kind u ∈ _
          rw [h, h']; simp [Op.newKinds]
      · right
        show ((w.alloc .decomp ("decompose_" ++ w.name x)).alloc .item
          (env.autoName (w.next + 1))).kind u ∈ _
        rw [h]; simp [Op.newKinds]
  | registerOutput nm x =>
    left
    show (World.register env w nm x).1.kind u = _
    rw [World.register_keeps.2.1]
  | addSubsystem nm =>
    show (World.kind (List.foldl _ _ (w.deps 0))) u = _ ∨ (World.kind (List.foldl _ _ (w.deps 0))) u ∈ _
    rw [hfold]
    exact one _ _ _ (halloc w .subsystem nm)
  | define out e =>
    unfold step; simp only
    split
    · exact Or.inl rfl
    · split
      · exact Or.inl rfl
      · split
        · exact Or.inl rfl
        · split <;> exact one _ _ _ (halloc w .input (w.name out))
  | setItem out e c =>
    left
    unfold step; simp only
    split
    · rfl
    · cases c <;> rfl
  | defineResidual out e =>
    unfold step; simp only
    split
    · exact Or.inl rfl
    · split
      · exact Or.inl rfl
      · split
        · exact Or.inl rfl
        · split
          · exact one _ _ _ (halloc w .input (w.name out))
          · split
            · rw [World.register_keeps.2.1]; exact one _ _ _ (halloc w .input (w.name out))
            · show (World.register _ _ _ _).1.kind u = _ ∨ (World.register _ _ _ _).1.kind u ∈ _
              rw [World.register_keeps.2.1]; exact one _ _ _ (halloc w .input (w.name out))

section
variable {genv : GEnv} {a : List Op}

theorem madeOutput_iff (hv : ValidFrom genv (World.init genv) a) (v : Ref) :
    v ∈ (final genv a).deps 0 ↔ MadeOutput genv (World.init genv) v a := by
  rw [final, run_root_iff v a (worldOk_init genv) hv]
  simp [World.init]

theorem register_deps {env : GEnv} {w : World} {nm : String} {y u v : Ref} :
    v ∈ (w.register env nm y).1.deps u ↔
      v ∈ w.deps u ∨ (u = 0 ∧ v = y ∧ (w.register env nm y).2 = none) := by
  unfold World.register
  split
  · simp
  · split
    · simp
    · show v ∈ OM.addDep env.o w.deps 0 y u ↔ _
      rw [mem_addDep]
      simp

theorem replaced_from {o : SetOrder Ref} {root leaf : Ref} {g g' : Graph} (hn : ∀ u, (g u).Nodup)
    (hr : Replaced o root leaf g g') {u v : Ref} (hv : v ∈ g' u) :
    v ∈ g u ∨ (v = leaf ∧ root ∈ g u) := by
  rcases hr u with e | ⟨h, e⟩
  · rw [e] at hv; exact Or.inl hv
  · rw [e, mem_replaced o root leaf (hn u)] at hv
    exact hv.imp And.left fun h' => ⟨h', h⟩

/-- A call records the dependencies it should. -/
theorem step_links (hva : ValidFrom genv (World.init genv) a) {op : Op} (hv : op.Valid (final genv a)) {u v : Ref}
    (h : op.Links genv a u v) : v ∈ (step genv (final genv a) op).1.deps u := by
  have ok : WorldOk (final genv a) := run_ok a (worldOk_init genv) hva
  have hrec := recent_iff genv a
  have hdec := decomp_iff genv a
  have hmade := madeOutput_iff hva
  simp only [Op.Links] at h
  generalize final genv a = w at *
  cases op with
  | declareInput nm =>
    obtain ⟨rfl, h⟩ := h
    have hr := (hrec v).2 h
    unfold step
    simp only [hr]
    exact (mem_addDep genv.o _ _ _ _ _).2 (Or.inr ⟨rfl, rfl⟩)
  | createIndep nm =>
    obtain ⟨rfl, rfl | h⟩ := h
    · exact (step_root_iff (env := genv) (op := .createIndep nm) ok hv _).2 (Or.inr rfl)
    · have hr := (hrec u).2 h
      unfold step
      simp only [hr]
      refine register_deps.2 (Or.inl ?_)
      exact (mem_addDep genv.o _ _ _ _ _).2 (Or.inr ⟨rfl, rfl⟩)
  | createOutput nm =>
    obtain ⟨rfl, rfl⟩ := h
    exact (mem_addDep genv.o w.deps 0 w.next 0 w.next).2 (Or.inr ⟨rfl, rfl⟩)
  | createImplicit nm => exact h.elim
  | combine args =>
    obtain ⟨rfl, h⟩ := h
    obtain ⟨_, _, _, _, _, _, _, _, h9⟩ := WorldOk.addDeps (env := genv) args
      (ok.alloc .expr (genv.autoName w.next)) (u := w.next) (Nat.lt_succ_self _)
      (by simp [World.alloc]) (fun d hd => ⟨(hv d hd).1, Nat.lt_succ_of_lt (hv d hd).2⟩)
    exact (h9 _ _).2 (Or.inr ⟨rfl, h⟩)
  | getItem x =>
    rcases h with ⟨hn, rfl, rfl⟩ | ⟨hn, rfl, rfl⟩ | ⟨rfl, hf⟩
    · have hd := (hdec v).2.2 hn
      unfold step
      simp only [hd, Function.update_self]
      refine (mem_addDep genv.o _ _ _ _ _).2 (Or.inl ?_)
      exact (mem_addDep genv.o _ _ _ _ _).2 (Or.inr ⟨rfl, rfl⟩)
    · have hd := (hdec x).2.2 hn
      unfold step
      simp only [hd, Function.update_self]
      exact (mem_addDep genv.o _ _ _ _ _).2 (Or.inr ⟨rfl, rfl⟩)
    · have hd := ((hdec x).1 v).2 hf
      unfold step
      simp only [hd]
      exact (mem_addDep genv.o _ _ _ _ _).2 (Or.inr ⟨rfl, rfl⟩)
  | registerOutput nm x => exact register_deps.2 (Or.inr h)
  | addSubsystem nm =>
    rcases h with ⟨rfl, h⟩ | ⟨rfl, rfl⟩
    · exact (step_addSubsystem (env := genv) ok nm).1 v ((hmade v).2 h)
    · exact (step_addSubsystem (env := genv) ok nm).2.1
  | define out e =>
    obtain ⟨rfl, rfl, hs⟩ := h
    unfold step at hs ⊢
    simp only at hs ⊢
    split at hs
    · cases hs
    · rename_i c1
      have hk' : w.kind u = .explicitOut := by simpa using c1
      rw [if_neg c1]
      split at hs
      · cases hs
      · rename_i c2
        rw [if_neg c2]
        split at hs
        · cases hs
        · rename_i c3
          rw [if_neg c3]
          split at hs
          · cases hs
          · rename_i g hg
            obtain ⟨_, r, _⟩ := define_spec ok hv.1 hv.2 hk' hg
            refine replaced_keeps (fun x => nodup_addDep genv.o w.deps u v x (ok.nodup x)) r
              ((mem_addDep genv.o _ _ _ _ _).2 (Or.inr ⟨rfl, rfl⟩)) c2
  | setItem out e c =>
    obtain ⟨rfl, rfl, hk⟩ := h
    unfold step
    simp only
    rw [if_neg (by simp [hk])]
    cases c <;> exact (mem_addDep genv.o _ _ _ _ _).2 (Or.inr ⟨rfl, rfl⟩)
  | defineResidual out e =>
    obtain ⟨rfl, rfl, h⟩ := h
    exact (step_root_iff (env := genv) (op := .defineResidual out v) ok hv v).2 (Or.inr ⟨rfl, h⟩)

/-- A call records no other dependencies. -/
theorem step_links_only (hva : ValidFrom genv (World.init genv) a)
    {op : Op} (hv : op.Valid (final genv a)) (hs : op.Safe genv (final genv a)) {u v : Ref}
    (h : v ∈ (step genv (final genv a) op).1.deps u) :
    v ∈ (final genv a).deps u ∨ op.Links genv a u v ∨ op.Feeds genv a u v := by
  have ok : WorldOk (final genv a) := run_ok a (worldOk_init genv) hva
  have hrec := recent_iff genv a
  have hdec := decomp_iff genv a
  have hmade := madeOutput_iff hva
  simp only [Op.Links, Op.Feeds]
  generalize final genv a = w at *
  cases op with
  | declareInput nm =>
    unfold step at h
    cases hr : w.recent with
    | none => rw [hr] at h; exact Or.inl h
    | some s =>
      rw [hr] at h
      rcases (mem_addDep genv.o _ _ _ _ _).1 h with h | ⟨rfl, rfl⟩
      · exact Or.inl h
      · exact Or.inr (Or.inl ⟨rfl, (hrec v).1 hr⟩)
  | createIndep nm =>
    unfold step at h
    simp only at h
    rcases register_deps.1 h with h | ⟨rfl, rfl, _⟩
    · cases hr : w.recent with
      | none => rw [hr] at h; exact Or.inl h
      | some s =>
        rw [hr] at h
        rcases (mem_addDep genv.o _ _ _ _ _).1 h with h | ⟨rfl, rfl⟩
        · exact Or.inl h
        · exact Or.inr (Or.inl ⟨rfl, Or.inr ((hrec u).1 hr)⟩)
    · exact Or.inr (Or.inl ⟨rfl, Or.inl rfl⟩)
  | createOutput nm =>
    rcases (mem_addDep genv.o _ _ _ _ _).1 h with h | ⟨rfl, rfl⟩
    · exact Or.inl h
    · exact Or.inr (Or.inl ⟨rfl, rfl⟩)
  | createImplicit nm => exact Or.inl h
  | combine args =>
    obtain ⟨_, _, _, _, _, _, _, _, h9⟩ := WorldOk.addDeps (env := genv) args
      (ok.alloc .expr (genv.autoName w.next)) (u := w.next) (Nat.lt_succ_self _)
      (by simp [World.alloc]) (fun d hd => ⟨(hv d hd).1, Nat.lt_succ_of_lt (hv d hd).2⟩)
    rcases (h9 _ _).1 h with h' | ⟨rfl, h'⟩
    · exact Or.inl h'
    · exact Or.inr (Or.inl ⟨rfl, h'⟩)
  | getItem x =>
    unfold step at h
    simp only at h
    cases hd : w.decomp x with
    | some d =>
      simp only [hd] at h
      rcases (mem_addDep genv.o _ _ _ _ _).1 h with h | ⟨rfl, rfl⟩
      · exact Or.inl h
      · exact Or.inr (Or.inl (Or.inr (Or.inr ⟨rfl, ((hdec x).1 v).1 hd⟩)))
    | none =>
      simp only [hd, Function.update_self] at h
      have hn := (hdec x).2.1 hd
      rcases (mem_addDep genv.o _ _ _ _ _).1 h with h | ⟨rfl, rfl⟩
      · rcases (mem_addDep genv.o _ _ _ _ _).1 h with h | ⟨rfl, rfl⟩
        · exact Or.inl h
        · exact Or.inr (Or.inl (Or.inl ⟨hn, rfl, rfl⟩))
      · exact Or.inr (Or.inl (Or.inr (Or.inl ⟨hn, rfl, rfl⟩)))
  | registerOutput nm x => exact (register_deps.1 h).imp id fun h => Or.inl h
  | addSubsystem nm =>
    obtain ⟨_, _, _, _, _, _, _, _, h9⟩ := WorldOk.addDeps (env := genv) (w.deps 0)
      (ok.alloc .subsystem nm) (u := w.next) (Nat.lt_succ_self _) (by simp [World.alloc])
      (fun d hd => ⟨(ok.range 0 d hd).1, Nat.lt_succ_of_lt (ok.range 0 d hd).2⟩)
    rcases (mem_addDep genv.o _ _ _ _ _).1 h with h | ⟨rfl, rfl⟩
    · rcases (h9 _ _).1 h with h' | ⟨rfl, h'⟩
      · exact Or.inl h'
      · exact Or.inr (Or.inl (Or.inl ⟨rfl, (hmade v).1 h'⟩))
    · exact Or.inr (Or.inl (Or.inr ⟨rfl, rfl⟩))
  | define out e =>
    unfold step at h
    simp only at h
    split at h
    · exact Or.inl h
    · rename_i c1
      have hk' : w.kind out = .explicitOut := by simpa using c1
      split at h
      · exact Or.inl h
      · rename_i c2
        split at h
        · exact Or.inl h
        · rename_i c3
          split at h
          · rename_i hg
            exfalso
            apply hs
            unfold step
            simp only
            rw [if_neg c1, if_neg c2, if_neg c3, hg]
          · rename_i g hg
            obtain ⟨_, r, hl, _⟩ := define_spec ok hv.1 hv.2 hk' hg
            have hst : (step genv w (.define out e)).2 = none := by
              unfold step
              simp only
              rw [if_neg c1, if_neg c2, if_neg c3, hg]
            rcases replaced_from (fun x => nodup_addDep genv.o w.deps out e x (ok.nodup x)) r h with
              h' | ⟨rfl, h'⟩
            · rcases (mem_addDep genv.o _ _ _ _ _).1 h' with h' | ⟨rfl, rfl⟩
              · exact Or.inl h'
              · exact Or.inr (Or.inl ⟨rfl, rfl, hst⟩)
            · rcases (mem_addDep genv.o _ _ _ _ _).1 h' with h' | ⟨_, rfl⟩
              · refine Or.inr (Or.inr ⟨rfl, h', ?_⟩)
                unfold step
                simp only
                rw [if_neg c1, if_neg c2, if_neg c3, hg]
                exact ⟨Nat.lt_succ_self _, Function.update_self .., hl⟩
              · exact absurd rfl c2
  | setItem out e c =>
    unfold step at h
    simp only at h
    split at h
    · exact Or.inl h
    · rename_i hk
      have hk' : w.kind out = .explicitOut := by simpa using hk
      cases c <;>
      · rcases (mem_addDep genv.o _ _ _ _ _).1 h with h | ⟨rfl, rfl⟩
        · exact Or.inl h
        · exact Or.inr (Or.inl ⟨rfl, rfl, hk'⟩)
  | defineResidual out e =>
    have h0 := h
    unfold step at h
    simp only at h
    split at h
    · exact Or.inl h
    · rename_i c1
      split at h
      · exact Or.inl h
      · rename_i c2
        split at h
        · exact Or.inl h
        · rename_i c3
          split at h
          · exact Or.inl h
          · rename_i g hg
            obtain ⟨_, r, hl, _⟩ := residual_spec ok hv.1 hv.2 hg
            have key : ∀ h' : v ∈ (World.register genv
                { w.alloc .input (w.name out) with deps := g }
                ((w.alloc .input (w.name out)).name e) e).1.deps u,
                v ∈ w.deps u ∨ (v = w.next ∧ out ∈ w.deps u) ∨ u = 0 := by
              intro h'
              rcases register_deps.1 h' with h' | ⟨rfl, _⟩
              · exact (replaced_from ok.nodup r h').imp id Or.inl
              · exact Or.inr (Or.inr rfl)
            have key' : v ∈ w.deps u ∨ (v = w.next ∧ out ∈ w.deps u) ∨ u = 0 := by
              split at h <;> exact key h
            rcases key' with h' | ⟨rfl, h'⟩ | rfl
            · exact Or.inl h'
            · refine Or.inr (Or.inr ⟨rfl, h', ?_⟩)
              have hreg : (World.register genv { w.alloc .input (w.name out) with deps := g }
                  ((w.alloc .input (w.name out)).name e) e).1.IsLeaf w.next := by
                refine ⟨?_, ?_, ?_⟩
                · rw [World.register_keeps.1]; exact Nat.lt_succ_self _
                · rw [World.register_keeps.2.1]; exact Function.update_self ..
                · apply List.eq_nil_iff_forall_not_mem.2
                  intro y hy
                  rcases register_deps.1 hy with hy | ⟨h0, _⟩
                  · have hy' : y ∈ g w.next := hy
                    rw [hl] at hy'; simp at hy'
                  · exact ok.pos.ne' h0
              unfold step
              simp only
              rw [if_neg c1, if_neg c2, if_neg c3, hg]
              simp only
              split <;> exact hreg
            · rcases (step_root_iff (env := genv) (op := .defineResidual out e) ok hv v).1 h0 with
                h' | ⟨rfl, h'⟩
              · exact Or.inl h'
              · exact Or.inr (Or.inl ⟨rfl, rfl, h'⟩)

end

end OM
