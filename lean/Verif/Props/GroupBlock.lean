import Verif.Model.GroupBlock
import Verif.Props.GroupApi

/-! # C86: exceptions in `create_group` blocks -/

namespace OM
open Spec

variable {penv cenv : GEnv} {senv : SetupEnv}

/-- The calls of a block that are made: all up to the first that raises. -/
def callsMade (env : GEnv) : World → List Op → List Op
  | _, [] => []
  | w, op :: ops =>
    if (step env w op).2 = none then op :: callsMade env (step env w op).1 ops else [op]

theorem runBody_world (env : GEnv) (own : Option PyErr) (ops : List Op) : ∀ w,
    (runBody env own w ops).1 = run env w (callsMade env w ops) := by
  induction ops with
  | nil => intro w; rfl
  | cons op ops ih =>
    intro w
    rw [runBody, callsMade]
    rcases hs : step env w op with ⟨w', _ | e⟩
    · simp only [if_true]
      rw [ih, run_cons, hs]
    · simp [run, hs]

/-- `r` is what a block of the calls `ops` raises: what the first refused call raises, or, if none is refused, the
block's own exception `own`. -/
def BlockRaises (env : GEnv) (own : Option PyErr) (w : World) (ops : List Op) (r : Option PyErr) : Prop :=
  (∃ a op b e, ops = a ++ op :: b ∧ (step env (run env w a) op).2 = some e ∧
    (∀ a' op' b', a = a' ++ op' :: b' → (step env (run env w a') op').2 = none) ∧ r = some e) ∨
  (∀ a op b, ops = a ++ op :: b → (step env (run env w a) op).2 = none) ∧ r = own

/-- What the block raises is what its first refused call raises, or else its own exception. -/
theorem runBody_raises (env : GEnv) (own : Option PyErr) (ops : List Op) : ∀ w,
    ((∃ a op b e, ops = a ++ op :: b ∧ (step env (run env w a) op).2 = some e ∧
        (∀ a' op' b', a = a' ++ op' :: b' → (step env (run env w a') op').2 = none) ∧
        callsMade env w ops = a ++ [op] ∧ (runBody env own w ops).2 = some e) ∨
      ((∀ a op b, ops = a ++ op :: b → (step env (run env w a) op).2 = none) ∧
        callsMade env w ops = ops ∧ (runBody env own w ops).2 = own)) := by
  induction ops with
  | nil => intro w; exact .inr ⟨by simp, rfl, rfl⟩
  | cons op ops ih =>
    intro w
    rcases hs : step env w op with ⟨w', _ | e⟩
    · rcases ih w' with ⟨a, op', b, e, h1, h2, h3, h4, h5⟩ | ⟨h1, h2, h3⟩
      · refine .inl ⟨op :: a, op', b, e, by rw [h1]; rfl, ?_, ?_, ?_, ?_⟩
        · rw [run_cons, hs]; exact h2
        · intro a' op'' b' ha
          cases a' with
          | nil =>
            rw [List.nil_append, List.cons.injEq] at ha
            rw [← ha.1]; simp [run, hs]
          | cons x a' =>
            rw [List.cons_append, List.cons.injEq] at ha
            rw [← ha.1, run_cons, hs]
            exact h3 a' op'' b' ha.2
        · rw [callsMade, hs]; simpa using h4
        · rw [runBody, hs]; exact h5
      · refine .inr ⟨?_, by rw [callsMade, hs]; simpa using h2, by rw [runBody, hs]; exact h3⟩
        intro a op' b ha
        cases a with
        | nil =>
          rw [List.nil_append, List.cons.injEq] at ha
          rw [← ha.1]; simp [run, hs]
        | cons x a =>
          rw [List.cons_append, List.cons.injEq] at ha
          rw [← ha.1, run_cons, hs]
          exact h1 a op' b ha.2
    · refine .inl ⟨[], op, ops, e, rfl, by simp [run, hs], by simp, by simp [callsMade, hs], by simp [runBody, hs]⟩

theorem runBody_blockRaises (env : GEnv) (own : Option PyErr) (w : World) (ops : List Op) :
    BlockRaises env own w ops (runBody env own w ops).2 := by
  rcases runBody_raises env own ops w with ⟨a, op, b, e, h1, h2, h3, _, h5⟩ | ⟨h1, _, h3⟩
  · exact .inl ⟨a, op, b, e, h1, h2, h3, h5⟩
  · exact .inr ⟨h1, h3⟩

theorem blockRaises_eq {env : GEnv} {own r : Option PyErr} (ops : List Op) : ∀ w,
    BlockRaises env own w ops r → (runBody env own w ops).2 = r := by
  induction ops with
  | nil =>
    rintro w (⟨a, op, b, e, h1, _⟩ | ⟨_, h⟩)
    · simp at h1
    · exact h.symm
  | cons op ops ih =>
    intro w h
    have hcons : ∀ a, run env w (op :: a) = run env (step env w op).1 a := fun a => run_cons ..
    rcases hs : step env w op with ⟨w', _ | e⟩
    · rw [hs] at hcons
      have : (runBody env own w (op :: ops)).2 = (runBody env own w' ops).2 := by rw [runBody, hs]
      rw [this]
      apply ih
      rcases h with ⟨a, op', b, e, h1, h2, h3, h4⟩ | ⟨h1, h2⟩
      · cases a with
        | nil =>
          rw [List.nil_append, List.cons.injEq] at h1
          rw [← h1.1] at h2
          simp [run, hs] at h2
        | cons x a =>
          rw [List.cons_append, List.cons.injEq] at h1
          obtain ⟨rfl, h1⟩ := h1
          refine .inl ⟨a, op', b, e, h1, by rw [← hcons]; exact h2, ?_, h4⟩
          intro a' op'' b' ha
          rw [← hcons]
          exact h3 (op :: a') op'' b' (by rw [ha]; rfl)
      · refine .inr ⟨fun a op' b ha => ?_, h2⟩
        rw [← hcons]
        exact h1 (op :: a) op' b (by rw [ha]; rfl)
    · have : (runBody env own w (op :: ops)).2 = some e := by rw [runBody, hs]
      rw [this]
      rcases h with ⟨a, op', b, e', h1, h2, h3, h4⟩ | ⟨h1, h2⟩
      · cases a with
        | nil =>
          rw [List.nil_append, List.cons.injEq] at h1
          rw [← h1.1] at h2
          rw [h4, ← h2]; simp [run, hs]
        | cons x a =>
          rw [List.cons_append, List.cons.injEq] at h1
          have := h3 [] x a rfl
          rw [← h1.1] at this
          simp [run, hs] at this
      · have := h1 [] op ops rfl
        simp [run, hs] at this

/-- **C86.** No exception of a block is lost: if the block raises, so does the `with` statement. -/
theorem c86_raises (parent : World) (nm : String) (body : List Op) (own : Option PyErr) {e : PyErr}
    (hr : BlockRaises cenv own (World.init cenv) body (some e)) :
    (createGroup penv cenv senv parent nm body own).raised ≠ none := by
  have h : (runBody cenv own (World.init cenv) body).2 ≠ none := by
    rw [blockRaises_eq body _ hr]; simp
  unfold createGroup
  simp only
  split
  · simp
  · exact h

/-- **C86.** What the `with` statement raises, exactly: `ValueError` if some output that the new group needs
is not defined when the block ends or raises, otherwise what the block raises. -/
theorem c86_exact {body : List Op} (h : GroupOk cenv senv (callsMade cenv (World.init cenv) body))
    (parent : World) (nm : String) (own : Option PyErr) :
    ((∃ u, Needs (createGroup penv cenv senv parent nm body own).child.deps 0 u ∧
        (createGroup penv cenv senv parent nm body own).child.undefinedOut u) →
      (createGroup penv cenv senv parent nm body own).raised = some .valueError) ∧
    ((¬ ∃ u, Needs (createGroup penv cenv senv parent nm body own).child.deps 0 u ∧
        (createGroup penv cenv senv parent nm body own).child.undefinedOut u) →
      BlockRaises cenv own (World.init cenv) body (createGroup penv cenv senv parent nm body own).raised) := by
  have hchild : (createGroup penv cenv senv parent nm body own).child =
      final cenv (callsMade cenv (World.init cenv) body) := by
    refine Eq.trans ?_ (runBody_world cenv own body (World.init cenv))
    unfold createGroup
    simp only
    split <;> rfl
  rw [hchild]
  obtain ⟨l, _, h2, _, h4⟩ := setupGroup_eq h
  have hw : (runBody cenv own (World.init cenv) body).1 =
    final cenv (callsMade cenv (World.init cenv) body) := runBody_world cenv own body _
  constructor
  · rintro ⟨u, hu, hd⟩
    have : setupGroup senv (runBody cenv own (World.init cenv) body).1 = .error .valueError := by
      rw [hw, h4]; exact buildAll_error l ⟨u, (h2 u).2 hu, hd⟩
    simp [createGroup, this, SetupError.py]
  · intro hn
    have : setupGroup senv (runBody cenv own (World.init cenv) body).1 = .ok (l.filter
        (final cenv (callsMade cenv (World.init cenv) body)).built) := by
      rw [hw, h4]
      exact buildAll_ok l fun u hu hd => hn ⟨u, (h2 u).1 hu, hd⟩
    have hr : (createGroup penv cenv senv parent nm body own).raised =
        (runBody cenv own (World.init cenv) body).2 := by simp [createGroup, this]
    rw [hr]
    exact runBody_blockRaises cenv own _ body

/-- **C86**, violated. An output created and not defined before the block raises: the exception of the
block, whatever it is, is replaced by "Output not defined". -/
theorem c86_masked {body a b : List Op} {out : String}
    (hb : callsMade cenv (World.init cenv) body = a ++ .createOutput out :: b)
    (h : GroupOk cenv senv (a ++ .createOutput out :: b))
    (hn : ¬ DefinedIn cenv (World.init cenv) (final cenv a).next (a ++ .createOutput out :: b))
    (parent : World) (nm : String) (own : Option PyErr) :
    (createGroup penv cenv senv parent nm body own).raised = some .valueError := by
  have hw : (runBody cenv own (World.init cenv) body).1 = final cenv (a ++ .createOutput out :: b) := by
    rw [runBody_world, hb]
  have := c10_undefined_reported h hn
  simp [createGroup, hw, this, SetupError.py]

/-- **C86.** If all outputs created so far are defined, the user gets the exception of the block. -/
theorem c86_seen_partial {body : List Op}
    (h : GroupOk cenv senv (callsMade cenv (World.init cenv) body))
    (hd : ∀ out < (final cenv (callsMade cenv (World.init cenv) body)).next,
      (final cenv (callsMade cenv (World.init cenv) body)).kind out = .explicitOut ∨
        (final cenv (callsMade cenv (World.init cenv) body)).kind out = .implicitOut →
      DefinedIn cenv (World.init cenv) out (callsMade cenv (World.init cenv) body))
    (parent : World) (nm : String) (own : Option PyErr) :
    BlockRaises cenv own (World.init cenv) body (createGroup penv cenv senv parent nm body own).raised := by
  obtain ⟨comps, hc⟩ := c10_defined_accepted h hd
  rw [show final cenv (callsMade cenv (World.init cenv) body) = _ from
    (runBody_world cenv own body (World.init cenv)).symm] at hc
  have hr : (createGroup penv cenv senv parent nm body own).raised =
      (runBody cenv own (World.init cenv) body).2 := by simp [createGroup, hc]
  rw [hr]
  exact runBody_blockRaises cenv own _ body

/-- **C86.** A block that raised has added its group all the same: every later setup of the group around it
that succeeds runs the unfinished group. -/
theorem c86_stays {a b : List Op} {nm : String} {env : SetupEnv} (body : List Op) (own : Option PyErr)
    (h : GroupOk penv env (a ++ .addSubsystem nm :: b)) {comps : List Ref}
    (hc : setupGroup env (run penv (createGroup penv cenv senv (final penv a) nm body own).parent b) =
      .ok comps) : (final penv a).next ∈ comps := by
  have hp : (createGroup penv cenv senv (final penv a) nm body own).parent =
      (step penv (final penv a) (.addSubsystem nm)).1 := by
    unfold createGroup
    simp only
    split <;> rfl
  have hfin : final penv (a ++ .addSubsystem nm :: b) =
      run penv (step penv (final penv a) (.addSubsystem nm)).1 b := by
    unfold final
    rw [run_append, run_cons]
  rw [hp, ← hfin] at hc
  rw [(comps_iff h hc).2, hfin]
  have hval := h.valid
  rw [validFrom_append] at hval
  have ok1 := run_ok a (worldOk_init penv) hval.1
  have ok2 := step_ok (env := penv) ok1 hval.2.1
  obtain ⟨f1, f2, f3, _⟩ := WorldOk.addDeps (env := penv) (u := (final penv a).next)
    ((final penv a).deps 0) (ok1.alloc .subsystem nm) (Nat.lt_succ_self _)
    (by simp [World.alloc])
    (fun d hd => ⟨(ok1.range 0 d hd).1, Nat.lt_succ_of_lt (ok1.range 0 d hd).2⟩)
  have hroot : (final penv a).next ∈ (step penv (final penv a) (.addSubsystem nm)).1.deps 0 :=
    (mem_addDep penv.o _ 0 (final penv a).next 0 (final penv a).next).2 (.inr ⟨rfl, rfl⟩)
  have hlt : (final penv a).next < (step penv (final penv a) (.addSubsystem nm)).1.next := by
    show _ < (List.foldl (fun w' d => w'.addDep penv (final penv a).next d)
      ((final penv a).alloc .subsystem nm) ((final penv a).deps 0)).next
    rw [f2]
    exact Nat.lt_succ_self _
  have hkind : (step penv (final penv a) (.addSubsystem nm)).1.kind (final penv a).next = .subsystem := by
    show (List.foldl (fun w' d => w'.addDep penv (final penv a).next d)
      ((final penv a).alloc .subsystem nm) ((final penv a).deps 0)).kind _ = _
    rw [f3]
    simp [World.alloc]
  refine ⟨.single (run_root b ok2 hval.2.2 _ hroot), ?_⟩
  simp only [World.built]
  rw [run_kind b ok2 hval.2.2 _ hlt, hkind]
  decide

/-! ## Examples -/

/-- `y = group.create_output('y')`, then registering an input, which raises `TypeError`: the user gets
`ValueError`. -/
example : (createGroup demoGEnv demoGEnv demoEnv (World.init demoGEnv) "s"
      [.createOutput "y", .declareInput "x", .registerOutput "z" 2, .define 1 2] none).raised =
        some .valueError ∧
    (runBody demoGEnv none (World.init demoGEnv)
      [.createOutput "y", .declareInput "x", .registerOutput "z" 2, .define 1 2]).2 = some .typeError := by
  refine ⟨c86_masked (a := []) (b := [.declareInput "x", .registerOutput "z" 2]) (out := "y") rfl ?_ ?_
    _ _ _, by decide⟩
  · exact groupOk_of_check (by decide) ⟨trivial, trivial, trivial, trivial⟩ (by decide) 8
      pyOrder_ascending (by decide)
  · rintro ⟨a, op, b, h1, h2, _⟩
    have hm : op ∈ ([.createOutput "y", .declareInput "x", .registerOutput "z" 2] : List Op) := by
      have : op ∈ a ++ op :: b := by simp
      rw [← h1] at this; exact this
    simp only [List.mem_cons, List.not_mem_nil, or_false] at hm
    rcases hm with rfl | rfl | rfl <;> exact h2

/-- With the definition first the user gets the `TypeError`. -/
example : (createGroup demoGEnv demoGEnv demoEnv (World.init demoGEnv) "s"
    [.createOutput "y", .declareInput "x", .define 1 2, .registerOutput "z" 2] none).raised =
      some .typeError := by
  refine (blockRaises_eq _ _ (c86_seen_partial ?_ ?_ _ _ _)).symm.trans (by decide)
  · exact groupOk_of_check (by decide) ⟨trivial, trivial, by unfold Op.Safe; decide, trivial, trivial⟩ (by decide) 8
      pyOrder_ascending (by decide)
  · intro out _ hk
    have : ∀ u < 4, (final demoGEnv (callsMade demoGEnv (World.init demoGEnv)
        [.createOutput "y", .declareInput "x", .define 1 2, .registerOutput "z" 2])).kind u = .explicitOut ∨
        (final demoGEnv (callsMade demoGEnv (World.init demoGEnv)
        [.createOutput "y", .declareInput "x", .define 1 2, .registerOutput "z" 2])).kind u = .implicitOut →
        u = 1 := by decide
    obtain rfl := this out (by assumption) hk
    exact ⟨[.createOutput "y", .declareInput "x"], .define 1 2, [.registerOutput "z" 2], rfl,
      rfl, by decide⟩

/-- The unfinished group is run. -/
example : 1 ∈ [1] :=
  c86_stays (penv := demoGEnv) (cenv := demoGEnv) (senv := demoEnv) (a := []) (b := []) (nm := "s") (env := demoEnv)
    [.createOutput "y", .registerOutput "z" 1] none
    (groupOk_of_check (by decide) ⟨trivial, trivial⟩ (by decide) 8 pyOrder_ascending (by decide)) (by decide)

end OM
