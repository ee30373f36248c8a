import Verif.Lemmas.Runs
import Verif.Props.Order

/-! # Lemmas about the result of `Group.setup` -/

namespace OM
open Spec

/-- Expressions that give a component. -/
def World.built (w : World) (u : Ref) : Bool :=
  !(w.kind u = .input ∨ w.kind u = .implicitOut ∨ w.kind u = .item ∨ w.kind u = .root : Bool)

/-- Outputs for which `define` etc. was never called successfully. -/
def World.undefinedOut (w : World) (u : Ref) : Prop :=
  (w.kind u = .explicitOut ∨ w.kind u = .implicitOut) ∧ w.defined u = false

theorem buildAll_ok {w : World} (l : List Ref) (h : ∀ u ∈ l, ¬ w.undefinedOut u) :
    buildAll w l = .ok (l.filter w.built) := by
  induction l with
  | nil => rfl
  | cons u l ih =>
    unfold buildAll
    have hu := h u List.mem_cons_self
    unfold World.undefinedOut at hu
    rw [if_neg hu, ih fun v hv => h v (List.mem_cons_of_mem _ hv)]
    by_cases hb : w.kind u = .input ∨ w.kind u = .implicitOut ∨ w.kind u = .item ∨ w.kind u = .root
    · have : w.built u = false := by simp [World.built, hb]
      rw [List.filter_cons_of_neg (by simp [this])]
      simp [Except.map, hb]
    · have : w.built u = true := by simp [World.built]; tauto
      rw [List.filter_cons_of_pos this]
      simp [Except.map, hb]

theorem buildAll_error {w : World} (l : List Ref) (h : ∃ u ∈ l, w.undefinedOut u) :
    buildAll w l = .error .valueError := by
  induction l with
  | nil => simp at h
  | cons u l ih =>
    unfold buildAll
    by_cases hu : w.undefinedOut u
    · exact if_pos hu
    · refine (if_neg hu).trans ?_
      rw [ih]
      · rfl
      · obtain ⟨v, hv, hv'⟩ := h
        rcases List.mem_cons.1 hv with rfl | hv
        · exact absurd hv' hu
        · exact ⟨v, hv, hv'⟩

theorem before_filter {l : List Ref} {a b : Ref} (p : Ref → Bool) (h : Before l a b)
    (ha : p a = true) (hb : p b = true) : Before (l.filter p) a b := by
  obtain ⟨x, y, z, rfl⟩ := h
  exact ⟨x.filter p, y.filter p, z.filter p, by simp [List.filter_append, ha, hb]⟩

/-- A history of calls on a new group that the theorems are about. -/
structure GroupOk (genv : GEnv) (env : SetupEnv) (ops : List Op) : Prop where
  /-- arguments are objects that exist -/
  valid : ValidFrom genv (World.init genv) ops
  /-- no expression is assigned (`out[key] = e`) to an output it depends on -/
  safe : SafeFrom genv (World.init genv) ops
  /-- fewer objects than Python's recursion limit -/
  size : (run genv (World.init genv) ops).next < env.limit
  /-- CPython: every needed expression has at most two dependencies; or at most four, at most one of which another one
  needs as well; or there are at most eight dependencies and independent variables -/
  order : ∀ u, Needs (run genv (World.init genv) ops).deps 0 u → OrderOk env.oi (run genv (World.init genv) ops).deps
    (((run genv (World.init genv) ops).deps 0).filter fun i =>
      (run genv (World.init genv) ops).kind i == .indep).length u

/-- The state of the group after the user's part of `setup`. -/
abbrev final (genv : GEnv) (ops : List Op) : World := run genv (World.init genv) ops

theorem GroupOk.ok {genv : GEnv} {env : SetupEnv} {ops : List Op} (h : GroupOk genv env ops) :
    WorldOk (final genv ops) := run_ok ops (worldOk_init genv) h.valid

theorem GroupOk.acyclic {genv : GEnv} {env : SetupEnv} {ops : List Op} (h : GroupOk genv env ops) :
    AcyclicG (final genv ops).deps :=
  run_acyclic ops (worldOk_init genv) (acyclic_init genv) h.valid h.safe

theorem GroupOk.wellFormed {genv : GEnv} {env : SetupEnv} {ops : List Op}
    (h : GroupOk genv env ops) :
    WellFormed env (fun u => (final genv ops).kind u == .indep) 0 (final genv ops).deps := by
  have ok := h.ok
  refine wellFormed_of_order (List.range (final genv ops).next) ?_ (by simpa using h.size)
    (fun v _ => h.acyclic v) h.order (fun u _ => ok.nodup u) ?_
  · intro v hv
    rcases Relation.ReflTransGen.cases_tail hv with rfl | ⟨c, _, hc⟩
    · simpa using ok.pos
    · simpa using (ok.range c v hc).2
  · intro i _ hi
    exact ok.indep i (by simpa using hi)

theorem setupGroup_eq {genv : GEnv} {env : SetupEnv} {ops : List Op} (h : GroupOk genv env ops) :
    ∃ l, l.Nodup ∧ (∀ v, v ∈ l ↔ Needs (final genv ops).deps 0 v) ∧
      (∀ u v, Needs (final genv ops).deps 0 u → Needs (final genv ops).deps u v → Before l v u) ∧
      setupGroup env (final genv ops) = buildAll (final genv ops) l := by
  obtain ⟨l, g1, h1, h2, h3, h4, h5⟩ := execOrder_ok h.wellFormed
  refine ⟨l, h2, h3, fun u v hu hv => h5 u v ((h3 u).2 hu)
    (needs_mono (fun a b hab => Relation.TransGen.single ((h4 a b).2 (Or.inl hab))) hv), ?_⟩
  unfold setupGroup
  unfold execOrder at h1
  cases hs : sortExpressions env (fun u => (final genv ops).kind u == .indep) 0
      (GState.fresh (final genv ops).deps) with
  | error e => rw [hs] at h1; cases h1
  | ok r =>
    rw [hs] at h1
    simp only [Except.map, Except.ok.injEq] at h1
    simp only [h1]

/-- If setup succeeds, needed components are ordered by their dependencies. -/
theorem setupGroup_before {genv : GEnv} {env : SetupEnv} {ops : List Op} (h : GroupOk genv env ops)
    {comps : List Ref} (hc : setupGroup env (final genv ops) = .ok comps) {u v : Ref}
    (hu : Needs (final genv ops).deps 0 u) (hv : Needs (final genv ops).deps u v)
    (bu : (final genv ops).built u = true) (bv : (final genv ops).built v = true) :
    Before comps v u := by
  obtain ⟨l, _, _, h3, h4⟩ := setupGroup_eq h
  rw [h4] at hc
  by_cases hd : ∃ u ∈ l, (final genv ops).undefinedOut u
  · rw [buildAll_error l hd] at hc; cases hc
  · rw [buildAll_ok l (by simpa using hd)] at hc
    cases hc
    exact before_filter _ (h3 u v hu hv) bv bu

/-! ## Single calls -/

theorem step_addSubsystem {env : GEnv} {w : World} (ok : WorldOk w) (nm : String) :
    (∀ v ∈ w.deps 0, v ∈ (step env w (.addSubsystem nm)).1.deps w.next) ∧
    w.next ∈ (step env w (.addSubsystem nm)).1.deps 0 ∧
    (step env w (.addSubsystem nm)).1.kind w.next = .subsystem ∧
    (step env w (.addSubsystem nm)).1.recent = some w.next ∧
    (step env w (.addSubsystem nm)).1.next = w.next + 1 := by
  obtain ⟨_, h2, h3, _, _, _, _, _, h9⟩ := WorldOk.addDeps (env := env) (w.deps 0)
    (ok.alloc .subsystem nm) (u := w.next) (Nat.lt_succ_self _) (by simp [World.alloc])
    (fun d hd => ⟨(ok.range 0 d hd).1, Nat.lt_succ_of_lt (ok.range 0 d hd).2⟩)
  refine ⟨fun v hv => ?_, ?_, ?_, rfl, h2⟩
  · exact (mem_addDep env.o _ 0 w.next w.next v).2 (Or.inl ((h9 w.next v).2 (Or.inr ⟨rfl, hv⟩)))
  · exact (mem_addDep env.o _ 0 w.next 0 w.next).2 (Or.inr ⟨rfl, rfl⟩)
  · refine (congrFun h3 w.next).trans ?_
    simp [World.alloc]

theorem step_recent {env : GEnv} {w : World} {op : Op} (h : ∀ nm, op ≠ .addSubsystem nm) :
    (step env w op).1.recent = w.recent := by
  have hfold : ∀ (u : Ref) (args : List Ref) (w' : World),
      (args.foldl (fun w' a => w'.addDep env u a) w').recent = w'.recent := by
    intro u args
    induction args with
    | nil => intro w'; rfl
    | cons a args ih => intro w'; rw [List.foldl_cons, ih]; rfl
  cases op with
  | addSubsystem nm => exact absurd rfl (h nm)
  | declareInput nm => unfold step; cases hr : w.recent <;> simp [World.addDep, World.alloc, hr]
  | createIndep nm =>
    unfold step
    cases hr : w.recent with
    | none => simp only; rw [World.register_keeps.2.2.1]; exact hr
    | some s => simp only; rw [World.register_keeps.2.2.1]; exact hr
  | createOutput nm => rfl
  | createImplicit nm => rfl
  | combine args => exact hfold _ _ _
  | getItem x =>
    unfold step
    simp only
    cases hd : w.decomp x with
    | some d => simp only [hd]; rfl
    | none => simp only [Function.update_self]; rfl
  | registerOutput nm x => exact World.register_keeps.2.2.1
  | define out e =>
    unfold step; simp only
    split
    · rfl
    · split
      · rfl
      · split
        · rfl
        · split <;> rfl
  | setItem out e c =>
    unfold step; simp only
    split
    · rfl
    · cases c <;> rfl
  | defineResidual out e =>
    unfold step; simp only
    split
    · rfl
    · split
      · rfl
      · split
        · rfl
        · split
          · rfl
          · split
            · exact World.register_keeps.2.2.1
            · exact World.register_keeps.2.2.1

/-- Once a subsystem was added, the most recent one is it or one that runs after it. -/
theorem recent_after {env : GEnv} (s0 : Ref) (ops : List Op) : ∀ {w : World}, WorldOk w →
    AcyclicG w.deps → ValidFrom env w ops → SafeFrom env w ops → s0 ∈ w.deps 0 → s0 < w.next →
    w.kind s0 = .subsystem →
    (∃ s, w.recent = some s ∧ (s = s0 ∨ s0 ∈ w.deps s)) →
    ∃ s, (run env w ops).recent = some s ∧ (s = s0 ∨ s0 ∈ (run env w ops).deps s) := by
  induction ops with
  | nil => intro w _ _ _ _ _ _ _ h; exact h
  | cons op ops ih =>
    intro w ok hac hv hs h0 hlt hk hrec
    have hst := step_keeps (env := env) ok hv.1
    refine ih (step_ok ok hv.1) (step_acyclic ok hac hv.1 hs.1) hv.2 hs.2 (hst.2.2.2.1 _ h0)
      (lt_of_lt_of_le hlt hst.1) ((hst.2.1 _ hlt).trans hk) ?_
    by_cases hop : ∃ nm, op = .addSubsystem nm
    · obtain ⟨nm, rfl⟩ := hop
      obtain ⟨h1, _, _, h4, _⟩ := step_addSubsystem (env := env) ok nm
      exact ⟨w.next, h4, Or.inr (h1 s0 h0)⟩
    · obtain ⟨s, h1, h2⟩ := hrec
      refine ⟨s, (step_recent (by push_neg at hop; exact hop)).trans h1, h2.imp id fun h2 => ?_⟩
      refine step_keeps_edge ok hac hv.1 ?_ h2
      intro hc
      cases op with
      | define out e => exact absurd (hk.symm.trans hc.2.1) (by decide)
      | defineResidual out e => exact absurd (hk.symm.trans hc.2.1) (by decide)
      | _ => exact hc

end OM
