import Verif.Lemmas.Items
import Verif.Lemmas.Loop

/-!
# The Group API: order of subsystems, undefined outputs, acyclicity (C07, C08, C09, C10, C14)

`final genv ops` is the state after the calls `ops` on a new group; the object created by the call
after `a` is number `(final genv a).next`. `setupGroup` gives the components added, in order.
-/

namespace OM
open Spec

section order
variable {genv : GEnv} {env : SetupEnv}

/-- Facts about a history split at a call of `add_subsystem`. -/
theorem split_subsystem {a b : List Op} {nm : String}
    (h : GroupOk genv env (a ++ .addSubsystem nm :: b)) :
    WorldOk (final genv a) ∧ AcyclicG (final genv a).deps ∧
    ValidFrom genv (World.init genv) a ∧
    WorldOk (final genv (a ++ [.addSubsystem nm])) ∧
    AcyclicG (final genv (a ++ [.addSubsystem nm])).deps ∧
    ValidFrom genv (final genv (a ++ [.addSubsystem nm])) b ∧
    SafeFrom genv (final genv (a ++ [.addSubsystem nm])) b ∧
    final genv (a ++ .addSubsystem nm :: b) = run genv (final genv (a ++ [.addSubsystem nm])) b ∧
    (∀ v ∈ (final genv a).deps 0, v ∈ (final genv (a ++ [.addSubsystem nm])).deps (final genv a).next) ∧
    (final genv a).next ∈ (final genv (a ++ [.addSubsystem nm])).deps 0 ∧
    (final genv (a ++ [.addSubsystem nm])).kind (final genv a).next = .subsystem ∧
    (final genv (a ++ [.addSubsystem nm])).recent = some (final genv a).next ∧
    (final genv (a ++ [.addSubsystem nm])).next = (final genv a).next + 1 ∧
    (∀ u, u < (final genv a).next →
      (final genv (a ++ [.addSubsystem nm])).kind u = (final genv a).kind u) := by
  have hva := (validFrom_append genv a _ _).1 h.valid
  have hsa := (safeFrom_append genv a _ _).1 h.safe
  have oka := run_ok a (worldOk_init genv) hva.1
  have aca := run_acyclic a (worldOk_init genv) (acyclic_init genv) hva.1 hsa.1
  have e1 : final genv (a ++ [.addSubsystem nm]) =
      (step genv (final genv a) (.addSubsystem nm)).1 := by
    simp [final, run_append, run]
  have e2 : final genv (a ++ .addSubsystem nm :: b) =
      run genv (final genv (a ++ [.addSubsystem nm])) b := by
    simp [final, run_append, run]
  obtain ⟨h1, h2, h3, h4, h5⟩ := step_addSubsystem (env := genv) oka nm
  rw [e2, e1]
  exact ⟨oka, aca, hva.1, step_ok oka hva.2.1, step_acyclic oka aca hva.2.1 hsa.2.1, hva.2.2, hsa.2.2,
    rfl, h1, h2, h3, h4, h5, (step_keeps (env := genv) oka hva.2.1).2.1⟩

/-- A subsystem is needed and has a component. -/
theorem subsystem_needed {a b : List Op} {nm : String}
    (h : GroupOk genv env (a ++ .addSubsystem nm :: b)) :
    Needs (final genv (a ++ .addSubsystem nm :: b)).deps 0 (final genv a).next ∧
    (final genv (a ++ .addSubsystem nm :: b)).kind (final genv a).next = .subsystem ∧
    (final genv (a ++ .addSubsystem nm :: b)).built (final genv a).next = true := by
  obtain ⟨_, _, _, ok1, _, v1, _, e2, _, h2, h3, _, h5, _⟩ := split_subsystem h
  have kS : (final genv (a ++ .addSubsystem nm :: b)).kind (final genv a).next = .subsystem := by
    rw [e2, run_kind b ok1 v1 _ (by rw [h5]; exact Nat.lt_succ_self _)]; exact h3
  refine ⟨Relation.TransGen.single ?_, kS, by simp [World.built, kS]⟩
  show _ ∈ World.deps _ 0
  rw [e2]; exact run_root b ok1 v1 _ h2

/-- **C07.** An output `o` registered or created before `add_subsystem` is computed before the subsystem
runs: so is the component `d` that writes it (`o` itself, or the decomposition of `x` if `o` is some
`x[key]`). Exceptions: implicit outputs have no component of their own; and an output that is later
defined by an expression which itself depends on the subsystem cannot run before it (`Op.Cuts`). -/
theorem c07_outputs_before_subsystem {a b : List Op} {nm : String} {o : Ref}
    (h : GroupOk genv env (a ++ .addSubsystem nm :: b))
    (ho : MadeOutput genv (World.init genv) o a) (hk : (final genv a).kind o ≠ .implicitOut)
    (hcut : NoCutFrom genv (final genv a).next o (final genv (a ++ [.addSubsystem nm])) b)
    {comps : List Ref}
    (hc : setupGroup env (final genv (a ++ .addSubsystem nm :: b)) = .ok comps) :
    ∃ d, (∀ d', Writes genv (a ++ .addSubsystem nm :: b) d' o ↔ d' = d) ∧
      Before comps d (final genv a).next := by
  obtain ⟨nS, kS, bS⟩ := subsystem_needed h
  obtain ⟨oka, aca, va, ok1, ac1, v1, s1, e2, h1, h2, h3, h4, h5, h6⟩ := split_subsystem h
  have ho' : o ∈ (final genv a).deps 0 := (run_root_iff o a (worldOk_init genv) va).2 (Or.inr ho)
  have hki : (final genv a).kind o ≠ .input :=
    run_root_kind a (worldOk_init genv) va (by simp [World.init]) o ho'
  have hlt : o < (final genv a).next := (oka.range 0 o ho').2
  have ho0 : o ≠ 0 := (oka.range 0 o ho').1.ne'
  have edge : o ∈ (final genv (a ++ .addSubsystem nm :: b)).deps (final genv a).next := by
    rw [e2]; exact run_keeps_edge b ok1 ac1 v1 s1 hcut (h1 o ho')
  have kO : (final genv (a ++ .addSubsystem nm :: b)).kind o = (final genv a).kind o := by
    rw [e2, run_kind b ok1 v1 _ (by omega), h6 o hlt]
  obtain ⟨d, hd, hd1⟩ := exists_writer h.valid o
  refine ⟨d, fun d' => ⟨hd1 d', fun e => e ▸ hd⟩, ?_⟩
  refine setupGroup_before h hc nS (writes_needs h.valid h.safe hd (Relation.TransGen.single edge)) bS
    (writes_built h.valid hd ?_ ?_ ?_)
  · rw [kO]; exact final_kind_root genv a o ho0
  · rw [kO]; exact hki
  · rw [kO]; exact hk

/-- **C09.** Of two subsystems, the one added first runs first. -/
theorem c09_subsystems_in_order {a b c : List Op} {nm1 nm2 : String}
    (h : GroupOk genv env (a ++ .addSubsystem nm1 :: (b ++ .addSubsystem nm2 :: c)))
    {comps : List Ref}
    (hc : setupGroup env (final genv (a ++ .addSubsystem nm1 :: (b ++ .addSubsystem nm2 :: c))) =
      .ok comps) :
    Before comps (final genv a).next (final genv (a ++ .addSubsystem nm1 :: b)).next := by
  have hl : a ++ .addSubsystem nm1 :: (b ++ .addSubsystem nm2 :: c) =
    (a ++ .addSubsystem nm1 :: b) ++ .addSubsystem nm2 :: c := by simp
  obtain ⟨_, _, bS⟩ := subsystem_needed h
  obtain ⟨_, _, _, ok1, _, v1, _, _, _, h2, h3, _, h5, _⟩ := split_subsystem h
  rw [hl] at h hc bS
  obtain ⟨nS', _, bS'⟩ := subsystem_needed h
  obtain ⟨oka, aca, va, ok1', ac1, v1', s1, e2, h1, _, _, _, h5', h6⟩ := split_subsystem h
  have e3 : final genv (a ++ .addSubsystem nm1 :: b) =
      run genv (final genv (a ++ [.addSubsystem nm1])) b := by simp [final, run_append, run]
  have v2 := ((validFrom_append genv b _ _).1 v1).1
  have hmem : (final genv a).next ∈ (final genv (a ++ .addSubsystem nm1 :: b)).deps 0 := by
    rw [e3]; exact run_root b ok1 v2 _ h2
  have hlt := (oka.range 0 _ hmem).2
  have kS : (final genv (a ++ .addSubsystem nm1 :: b)).kind (final genv a).next = .subsystem := by
    rw [e3, run_kind b ok1 v2 _ (by rw [h5]; exact Nat.lt_succ_self _)]; exact h3
  refine setupGroup_before h hc nS' (Relation.TransGen.single ?_) bS' bS
  show _ ∈ World.deps _ _
  rw [e2]
  refine run_keeps_edge c ok1' ac1 v1' s1 (noCutFrom_of_kind c ok1' v1' (by omega) ?_ ?_) (h1 _ hmem)
  · rw [h6 _ hlt, kS]; decide
  · rw [h6 _ hlt, kS]; decide

/-- **C08.** Everything needed that is built, directly or not, on an input declared after a subsystem
runs after that subsystem. -/
theorem c08_inputs_after_subsystem {a b c : List Op} {nm1 nm2 : String}
    (h : GroupOk genv env (a ++ .addSubsystem nm1 :: (b ++ .declareInput nm2 :: c)))
    {comps : List Ref}
    (hc : setupGroup env (final genv (a ++ .addSubsystem nm1 :: (b ++ .declareInput nm2 :: c))) =
      .ok comps) {u : Ref} (hu : u ∈ comps)
    (hui : Needs (final genv (a ++ .addSubsystem nm1 :: (b ++ .declareInput nm2 :: c))).deps u
      (final genv (a ++ .addSubsystem nm1 :: b)).next) :
    Before comps (final genv a).next u := by
  obtain ⟨nS, kS, bS⟩ := subsystem_needed h
  obtain ⟨_, _, _, ok1, ac1, v1, s1, e2, _, h2, h3, h4, h5, _⟩ := split_subsystem h
  set S := (final genv a).next with hS
  set wf := final genv (a ++ .addSubsystem nm1 :: (b ++ .declareInput nm2 :: c)) with hwf
  have e3 : final genv (a ++ .addSubsystem nm1 :: b) =
      run genv (final genv (a ++ [.addSubsystem nm1])) b := by simp [final, run_append, run]
  obtain ⟨v2, v3⟩ := (validFrom_append genv b _ _).1 v1
  obtain ⟨s2, s3⟩ := (safeFrom_append genv b _ _).1 s1
  have hlt1 : S < (final genv (a ++ [.addSubsystem nm1])).next := by rw [h5]; exact Nat.lt_succ_self _
  obtain ⟨s, hr, hs⟩ := recent_after S b ok1 ac1 v2 s2 h2 hlt1 h3 ⟨S, h4, Or.inl rfl⟩
  rw [← e3] at hr hs v3 s3
  have ok2 : WorldOk (final genv (a ++ .addSubsystem nm1 :: b)) := by rw [e3]; exact run_ok b ok1 v2
  have ac2 : AcyclicG (final genv (a ++ .addSubsystem nm1 :: b)).deps := by
    rw [e3]; exact run_acyclic b ok1 ac1 v2 s2
  set w2 := final genv (a ++ .addSubsystem nm1 :: b) with hw2
  have ok3 := step_ok (env := genv) ok2 v3.1
  have ac3 := step_acyclic (env := genv) ok2 ac2 v3.1 s3.1
  have hk3 := step_keeps (env := genv) ok2 v3.1
  have e4 : wf = run genv (step genv w2 (.declareInput nm2)).1 c := by
    simp [hwf, hw2, final, run_append, run]
  obtain ⟨_, hsn, hsk⟩ := ok2.recent s hr
  have hS2 : S < w2.next := lt_of_lt_of_le hlt1 (by rw [e3]; exact run_next b ok1 v2)
  have kS2 : w2.kind S = .subsystem := by rw [e3, run_kind b ok1 v2 _ hlt1]; exact h3
  have hedge1 : s ∈ (step genv w2 (.declareInput nm2)).1.deps w2.next := by
    unfold step
    rw [hr]
    exact (mem_addDep genv.o w2.deps w2.next s w2.next s).2 (Or.inr ⟨rfl, rfl⟩)
  have hE1 : s ∈ wf.deps w2.next := by
    rw [e4]
    refine run_keeps_edge c ok3 ac3 v3.2 s3.2 (noCutFrom_of_kind c ok3 v3.2
      (lt_of_lt_of_le hsn hk3.1) ?_ ?_) hedge1
    · rw [hk3.2.1 s hsn, hsk]; decide
    · rw [hk3.2.1 s hsn, hsk]; decide
  have hE2 : Reach wf.deps s S := by
    rcases hs with rfl | hs
    · exact Relation.ReflTransGen.refl
    · refine Relation.ReflTransGen.single ?_
      show S ∈ wf.deps s
      rw [e4]
      have hne : ¬ (Op.declareInput nm2).Cuts w2 s S := fun hh => hh
      refine run_keeps_edge c ok3 ac3 v3.2 s3.2 (noCutFrom_of_kind c ok3 v3.2
        (lt_of_lt_of_le hS2 hk3.1) ?_ ?_) (step_keeps_edge ok2 ac2 v3.1 hne hs)
      · rw [hk3.2.1 S hS2, kS2]; decide
      · rw [hk3.2.1 S hS2, kS2]; decide
  have hneed : Needs wf.deps u S := (hui.tail hE1).trans_left hE2
  obtain ⟨l, _, hmem, hord, heq⟩ := setupGroup_eq h
  rw [heq] at hc
  by_cases hd : ∃ u ∈ l, wf.undefinedOut u
  · rw [buildAll_error l hd] at hc; cases hc
  · rw [buildAll_ok l (by simpa using hd)] at hc
    cases hc
    obtain ⟨hul, hub⟩ := List.mem_filter.1 hu
    exact before_filter _ (hord u S ((hmem u).1 hul) hneed) bS hub

/-! ## Undefined outputs -/

/-- The call gives a definition to output `out`. -/
def Op.DefinesOut (out : Ref) : Op → Prop
  | .define o _ => o = out
  | .setItem o _ _ => o = out
  | .defineResidual o _ => o = out
  | _ => False

/-- Some call of the history that gives a definition to `out` succeeded. -/
def DefinedIn (env : GEnv) (w : World) (out : Ref) (ops : List Op) : Prop :=
  ∃ a op b, ops = a ++ op :: b ∧ op.DefinesOut out ∧ (step env (run env w a) op).2 = none

theorem fold_defined {env : GEnv} {u : Ref} (args : List Ref) (w : World) :
    (args.foldl (fun w' a => w'.addDep env u a) w).defined = w.defined := by
  induction args generalizing w with
  | nil => rfl
  | cons a args ih => rw [List.foldl_cons, ih]; rfl

theorem step_defined {env : GEnv} {w : World} {op : Op} (hs : op.Safe env w) (out : Ref) :
    (step env w op).1.defined out = true ↔
      w.defined out = true ∨ (op.DefinesOut out ∧ (step env w op).2 = none) := by
  cases op with
  | declareInput nm => unfold step; cases hr : w.recent <;> simp [Op.DefinesOut, World.alloc, World.addDep]
  | createIndep nm =>
    unfold step
    simp only [Op.DefinesOut, false_and, or_false]
    rw [World.register_keeps.2.2.2.2.1]
    cases hr : w.recent <;> exact Iff.rfl
  | createOutput nm => simp [Op.DefinesOut, step, World.alloc, World.addDep]
  | createImplicit nm => simp [Op.DefinesOut, step, World.alloc]
  | combine args =>
    simp only [Op.DefinesOut, false_and, or_false]
    show (World.defined (List.foldl _ _ args)) out = true ↔ _
    rw [fold_defined]; exact Iff.rfl
  | getItem x =>
    unfold step
    simp only [Op.DefinesOut, false_and, or_false]
    cases hd : w.decomp x with
    | some d => simp only [hd]; exact Iff.rfl
    | none => simp only [Function.update_self]; exact Iff.rfl
  | registerOutput nm x =>
    simp only [Op.DefinesOut, false_and, or_false]
    show (World.register env w nm x).1.defined out = true ↔ _
    rw [World.register_keeps.2.2.2.2.1]
  | addSubsystem nm =>
    simp only [Op.DefinesOut, false_and, or_false]
    show (World.defined (List.foldl _ _ (w.deps 0))) out = true ↔ _
    rw [fold_defined]; exact Iff.rfl
  | define o e =>
    have hs' : (step env w (.define o e)).2 ≠ some .recursionError := hs
    have hd : (Op.define o e).DefinesOut out ↔ o = out := Iff.rfl
    rw [hd]
    unfold step at hs' ⊢
    simp only at hs' ⊢
    split
    · simp
    · rename_i c1
      rw [if_neg c1] at hs'
      split
      · simp
      · rename_i c2
        rw [if_neg c2] at hs'
        split
        · simp
        · rename_i c3
          rw [if_neg c3] at hs'
          split
          · rename_i c4
            rw [c4] at hs'
            exact absurd rfl hs'
          · show Function.update w.defined o true out = true ↔ _
            by_cases h : o = out
            · subst h; simp
            · rw [Function.update_of_ne (Ne.symm h)]; simp [h]
  | setItem o e c =>
    have hd : (Op.setItem o e c).DefinesOut out ↔ o = out := Iff.rfl
    rw [hd]
    unfold step
    simp only
    split
    · simp
    · cases c with
      | some err => simp [World.addDep]
      | none =>
        show Function.update w.defined o true out = true ↔ _
        by_cases h : o = out
        · subst h; simp
        · rw [Function.update_of_ne (Ne.symm h)]; simp [h]
  | defineResidual o e =>
    have hd : (Op.defineResidual o e).DefinesOut out ↔ o = out := Iff.rfl
    rw [hd]
    unfold step
    simp only
    split
    · simp
    · split
      · simp
      · split
        · simp
        · split
          · simp [World.alloc]
          · rename_i g hg
            split
            · rw [World.register_keeps.2.2.2.2.1]; simp [World.alloc]
            · show Function.update (World.register _ _ _ _).1.defined o true out = true ↔ _
              by_cases h : o = out
              · subst h; simp
              · rw [Function.update_of_ne (Ne.symm h), World.register_keeps.2.2.2.2.1]
                simp [h, World.alloc]

theorem run_defined_iff {env : GEnv} (out : Ref) (ops : List Op) : ∀ {w : World}, WorldOk w →
    ValidFrom env w ops → SafeFrom env w ops →
    ((run env w ops).defined out = true ↔ w.defined out = true ∨ DefinedIn env w out ops) := by
  induction ops with
  | nil => intro w _ _ _; simp [run, DefinedIn]
  | cons op ops ih =>
    intro w ok hv hs
    rw [run_cons, ih (step_ok ok hv.1) hv.2 hs.2, step_defined hs.1, or_assoc]
    refine or_congr_right ⟨?_, ?_⟩
    · rintro (h | ⟨a, op', b, rfl, h⟩)
      · exact ⟨[], op, ops, rfl, h⟩
      · exact ⟨op :: a, op', b, rfl, h⟩
    · rintro ⟨a, op', b, e, h⟩
      cases a with
      | nil =>
        simp only [List.nil_append, List.cons.injEq] at e
        obtain ⟨rfl, rfl⟩ := e
        exact Or.inl h
      | cons a1 a =>
        simp only [List.cons_append, List.cons.injEq] at e
        obtain ⟨rfl, rfl⟩ := e
        exact Or.inr ⟨a, op', b, rfl, h⟩

/-- **C10**, first half. An output made by `create_output` that no successful call defined makes
`setup` raise `ValueError`. -/
theorem c10_undefined_reported {a b : List Op} {nm : String}
    (h : GroupOk genv env (a ++ .createOutput nm :: b))
    (hn : ¬ DefinedIn genv (World.init genv) (final genv a).next (a ++ .createOutput nm :: b)) :
    setupGroup env (final genv (a ++ .createOutput nm :: b)) = .error .valueError := by
  have hva := (validFrom_append genv a _ _).1 h.valid
  have oka := run_ok a (worldOk_init genv) hva.1
  have ok1 := step_ok (env := genv) oka hva.2.1
  have e : final genv (a ++ .createOutput nm :: b) =
      run genv (step genv (final genv a) (.createOutput nm)).1 b := by
    simp [final, run_append, run]
  have hroot : (final genv a).next ∈ (final genv (a ++ .createOutput nm :: b)).deps 0 := by
    rw [e]
    refine run_root b ok1 hva.2.2 _ ?_
    exact (mem_addDep genv.o _ 0 _ 0 _).2 (Or.inr ⟨rfl, rfl⟩)
  have hkind : (final genv (a ++ .createOutput nm :: b)).kind (final genv a).next = .explicitOut := by
    rw [e, run_kind b ok1 hva.2.2 _ (Nat.lt_succ_self _)]
    simp [step, World.alloc, World.addDep]
  have hdef : (final genv (a ++ .createOutput nm :: b)).defined (final genv a).next = false := by
    rw [Bool.eq_false_iff, ne_eq]
    intro hd
    rcases (run_defined_iff _ _ (worldOk_init genv) h.valid h.safe).1 hd with hd | hd
    · simp [World.init] at hd
    · exact hn hd
  obtain ⟨l, _, hmem, _, heq⟩ := setupGroup_eq h
  rw [heq]
  exact buildAll_error l ⟨_, (hmem _).2 (Relation.TransGen.single hroot), Or.inl hkind, hdef⟩

/-- **C10**, second half. If every output created, explicit or implicit, was defined by a successful
call, `setup` succeeds. -/
theorem c10_defined_accepted {ops : List Op} (h : GroupOk genv env ops)
    (hd : ∀ out < (final genv ops).next,
      (final genv ops).kind out = .explicitOut ∨ (final genv ops).kind out = .implicitOut →
      DefinedIn genv (World.init genv) out ops) :
    ∃ comps, setupGroup env (final genv ops) = .ok comps := by
  obtain ⟨l, _, hmem, _, heq⟩ := setupGroup_eq h
  refine ⟨_, heq.trans (buildAll_ok l ?_)⟩
  rintro u hu ⟨hk, hf⟩
  obtain ⟨c, _, hc⟩ := Relation.TransGen.tail'_iff.1 ((hmem u).1 hu)
  have := (run_defined_iff u ops (worldOk_init genv) h.valid h.safe).2
    (Or.inr (hd u (h.ok.range c u hc).2 hk))
  have hf' : (run genv (World.init genv) ops).defined u = false := hf
  rw [this] at hf'
  cases hf'

end order

/-! ## Acyclicity -/

/-- **C14**, what holds: the graph analysed by `setup` is acyclic if no call is an indexed assignment
of an expression to an output it already depends on, and no `define` runs into the recursion limit.
The claim without the first condition is false, see below. -/
theorem c14_acyclic_partial {genv : GEnv} {ops : List Op} (hv : ValidFrom genv (World.init genv) ops)
    (hs : SafeFrom genv (World.init genv) ops) (v : Ref) :
    ¬ Needs (final genv ops).deps v v :=
  run_acyclic ops (worldOk_init genv) (acyclic_init genv) hv hs v

/-- `x = create_output('x'); x[1] = f(x[0])` -/
def selfAssignment : List Op :=
  [.createOutput "x", .getItem 1, .combine [3], .setItem 1 4 none]

/-- **C14, refuted.** Assigning one element of an output in terms of another element makes a cycle, and
`setup` ends in `RecursionError`: for every recursion limit and every order of sets. -/
theorem c14_self_assignment (genv : GEnv) (env : SetupEnv) :
    ValidFrom genv (World.init genv) selfAssignment ∧
    Needs (final genv selfAssignment).deps 1 1 ∧
    setupGroup env (final genv selfAssignment) = .error .recursionError := by
  have hd : (final genv selfAssignment).deps = ofAdj [[1], [4], [1], [2], [3]] := by
    funext u
    simp only [final, selfAssignment, run, List.foldl, step, World.init, World.alloc, World.addDep,
      addDep, Function.update_self]
    simp only [Function.update_apply, List.nil_append]
    rcases u with _ | _ | _ | _ | _ | u <;>
      simp [SetOrder.list_singleton, ofAdj]
  have hk : ∀ u, ((final genv selfAssignment).kind u == .indep) = false := by
    intro u
    simp only [final, selfAssignment, run, List.foldl, step, World.init, World.alloc, World.addDep,
      addDep, Function.update_self]
    simp only [Function.update_apply]
    rcases u with _ | _ | _ | _ | _ | u <;> simp
  refine ⟨?_, ?_, ?_⟩
  · simp [ValidFrom, selfAssignment, Op.Valid, step, World.init, World.alloc, World.addDep,
      Function.update_self]
  · rw [hd]
    have e : ∀ a b : Nat, b ∈ ofAdj [[1], [4], [1], [2], [3]] a →
      Needs (ofAdj [[1], [4], [1], [2], [3]]) a b := fun a b h => Relation.TransGen.single h
    exact (((e 1 4 (by decide)).trans (e 4 3 (by decide))).trans (e 3 2 (by decide))).trans
      (e 2 1 (by decide))
  · unfold setupGroup
    rw [sortExpressions_loop env _ 0 _ hk ?_ (fun u => u < 5) (by decide) ?_]
    · intro u _
      rw [hd]
      rcases u with _ | _ | _ | _ | _ | u <;> simp [ofAdj]
    · intro u hu
      rw [hd]
      interval_cases u
      · exact ⟨1, by decide, by decide⟩
      · exact ⟨4, by decide, by decide⟩
      · exact ⟨1, by decide, by decide⟩
      · exact ⟨2, by decide, by decide⟩
      · exact ⟨3, by decide, by decide⟩

/-- `x = create_output('x'); add_subsystem('s', …); b = declare_input('b'); x[:] = b` -/
def feedbackAssignment : List Op :=
  [.createOutput "x", .addSubsystem "s", .declareInput "b", .setItem 1 3 none]

/-- **C14, refuted again.** Assigning to an output created before a subsystem from an input declared
after it makes a cycle (output - input - subsystem - output). -/
theorem c14_feedback_assignment (genv : GEnv) (env : SetupEnv) :
    ValidFrom genv (World.init genv) feedbackAssignment ∧
    Needs (final genv feedbackAssignment).deps 1 1 ∧
    setupGroup env (final genv feedbackAssignment) = .error .recursionError := by
  have hd : ∀ u, u ≠ 0 → (final genv feedbackAssignment).deps u = ofAdj [[], [3], [1], [2]] u := by
    intro u hu
    simp only [final, feedbackAssignment, run, List.foldl, step, World.init, World.alloc, World.addDep,
      addDep, Function.update_self]
    simp only [Function.update_apply, List.nil_append, SetOrder.list_singleton, List.foldl_cons,
      List.foldl_nil, Function.update_apply]
    rcases u with _ | _ | _ | _ | u
    · exact absurd rfl hu
    all_goals simp [SetOrder.list_singleton, ofAdj]
  have h0 : 1 ∈ (final genv feedbackAssignment).deps 0 := by
    simp only [final, feedbackAssignment, run, List.foldl, step, World.init, World.alloc, World.addDep,
      addDep, Function.update_self]
    simp [Function.update_apply, SetOrder.list_singleton, SetOrder.mem_iff]
  have hk : ∀ u, ((final genv feedbackAssignment).kind u == .indep) = false := by
    intro u
    simp only [final, feedbackAssignment, run, List.foldl, step, World.init, World.alloc, World.addDep,
      addDep, Function.update_self]
    simp only [Function.update_apply, List.nil_append, SetOrder.list_singleton, List.foldl_cons,
      List.foldl_nil]
    rcases u with _ | _ | _ | _ | u <;> simp
  refine ⟨?_, ?_, ?_⟩
  · simp [ValidFrom, feedbackAssignment, Op.Valid, step, World.init, World.alloc, World.addDep,
      Function.update_self, addDep, SetOrder.list_singleton]
  · have e : ∀ a b : Nat, a ≠ 0 → b ∈ ofAdj [[], [3], [1], [2]] a →
      Needs (final genv feedbackAssignment).deps a b := fun a b ha h =>
        Relation.TransGen.single (by show b ∈ World.deps _ a; rw [hd a ha]; exact h)
    exact ((e 1 3 (by decide) (by decide)).trans (e 3 2 (by decide) (by decide))).trans
      (e 2 1 (by decide) (by decide))
  · unfold setupGroup
    rw [sortExpressions_loop env _ 0 _ hk ?_ (fun u => u < 4) (by decide) ?_]
    · intro u hu
      by_cases h : u = 0
      · exfalso
        subst h
        obtain ⟨c, _, hc⟩ := Relation.TransGen.tail'_iff.1 hu
        have hok : WorldOk (final genv feedbackAssignment) := by
          refine run_ok _ (worldOk_init genv) ?_
          simp [ValidFrom, feedbackAssignment, Op.Valid, step, World.init, World.alloc, World.addDep,
            Function.update_self, addDep, SetOrder.list_singleton]
        exact hok.no_edge_to_root c hc
      · rw [hd u h]
        rcases u with _ | _ | _ | _ | u <;> simp [ofAdj]
    · intro u hu
      by_cases h : u = 0
      · subst h; exact ⟨1, h0, by decide⟩
      · rw [hd u h]
        interval_cases u
        · exact absurd rfl h
        · exact ⟨3, by decide, by decide⟩
        · exact ⟨1, by decide, by decide⟩
        · exact ⟨2, by decide, by decide⟩

/-! ## A history that satisfies the hypotheses -/

instance (w : World) (op : Op) : Decidable (op.Valid w) := by
  cases op <;> unfold Op.Valid <;> infer_instance

instance decValid (env : GEnv) : ∀ (ops : List Op) (w : World), Decidable (ValidFrom env w ops)
  | [], _ => isTrue trivial
  | op :: ops, w =>
    have := decValid env ops (step env w op).1
    inferInstanceAs (Decidable (op.Valid w ∧ ValidFrom env (step env w op).1 ops))

def demoGEnv : GEnv := ⟨demoEnv.ov, 50, fun _ => "_"⟩

/-- An independent variable (1), an input (2), `y = f(1, 2)` (3) registered, a subsystem (4), an input
from it (5), an output (6) defined by `g(5, 6)` (7; the feedback input is 8), a second subsystem (9). -/
def demoOps : List Op :=
  [.createIndep "a", .declareInput "x", .combine [1, 2], .registerOutput "y" 3, .addSubsystem "s",
   .declareInput "b", .createOutput "z", .combine [5, 6], .define 6 7, .addSubsystem "t"]

theorem groupOk_of_check {genv : GEnv} {env : SetupEnv} {ops : List Op}
    (hv : ValidFrom genv (World.init genv) ops) (hs : SafeFrom genv (World.init genv) ops)
    (hsize : (final genv ops).next < env.limit) (k : Nat) (hk : AscendingBelow env.oi k)
    (hlen : ∀ u < (final genv ops).next, ((final genv ops).deps u).length +
      (((final genv ops).deps 0).filter fun i => (final genv ops).kind i == .indep).length ≤ k) :
    GroupOk genv env ops := by
  refine ⟨hv, hs, hsize, fun u hu => .of_below hk ?_⟩
  obtain ⟨c, _, hc⟩ := Relation.TransGen.tail'_iff.1 hu
  exact hlen u ((run_ok ops (worldOk_init genv) hv).range c u hc).2

/-- CPython, at most two dependencies of every expression: any number of independent variables. -/
theorem groupOk_of_two {genv : GEnv} {env : SetupEnv} {ops : List Op}
    (hv : ValidFrom genv (World.init genv) ops) (hs : SafeFrom genv (World.init genv) ops)
    (hsize : (final genv ops).next < env.limit) (hpy : env.oi = pyOrder)
    (hlen : ∀ u < (final genv ops).next, 0 < u → ((final genv ops).deps u).length ≤ 2) :
    GroupOk genv env ops := by
  refine ⟨hv, hs, hsize, fun u hu => ?_⟩
  obtain ⟨c, _, hc⟩ := Relation.TransGen.tail'_iff.1 hu
  have hr := (run_ok ops (worldOk_init genv) hv).range c u hc
  rw [hpy]
  exact orderOk_two _ (hlen u hr.2 (by omega)) fun c _ h => run_acyclic ops (worldOk_init genv) (acyclic_init genv) hv hs c h

theorem demo_groupOk : GroupOk demoGEnv demoEnv demoOps :=
  groupOk_of_check (by decide) ⟨trivial, trivial, trivial, trivial, trivial, trivial, trivial, trivial,
    (show _ ≠ _ by decide), trivial, trivial⟩ (by decide) 8 pyOrder_ascending (by decide)

example : setupGroup demoEnv (final demoGEnv demoOps) = .ok [1, 3, 4, 7, 6, 9] := by decide

/-- Twelve independent variables, `y = f(1, 2)` and `z = g(y, 12)`. -/
def manyOps : List Op :=
  ["a", "b", "c", "d", "e", "f", "g", "h", "i", "j", "k", "l"].map .createIndep ++
    [.combine [1, 2], .combine [13, 12], .registerOutput "z" 14]

theorem many_groupOk : GroupOk demoGEnv demoEnv manyOps :=
  groupOk_of_two (by decide) ⟨trivial, trivial, trivial, trivial, trivial, trivial, trivial, trivial, trivial, trivial,
    trivial, trivial, trivial, trivial, trivial, trivial⟩ (by decide) rfl (by decide)

example : setupGroup demoEnv (final demoGEnv manyOps) = .ok [1, 2, 3, 4, 5, 6, 7, 8, 9, 10, 11, 12, 13, 14] := by
  decide +kernel

/-- The hypotheses of C07 hold for output 6 and the second subsystem. -/
example : ∃ d, (∀ d', Writes demoGEnv demoOps d' 6 ↔ d' = d) ∧ Before [1, 3, 4, 7, 6, 9] d 9 :=
  c07_outputs_before_subsystem (a := demoOps.take 9) (b := []) (nm := "t") demo_groupOk
    ⟨demoOps.take 6, .createOutput "z", (demoOps.take 9).drop 7, rfl, by show _ = _; decide⟩
    (by decide) trivial (by decide)

/-- An input, two of its parts, one of them an output; a subsystem; an output defined by the other
part. -/
abbrev itemOps : List Op :=
  [.declareInput "x", .getItem 1, .getItem 1, .registerOutput "y" 3, .addSubsystem "s",
   .combine [4], .registerOutput "z" 6]

theorem item_groupOk : GroupOk demoGEnv demoEnv itemOps :=
  groupOk_of_check (by decide) ⟨trivial, trivial, trivial, trivial, trivial, trivial, trivial, trivial⟩
    (by decide) 8 pyOrder_ascending (by decide)

/-- The parts have no components of their own; object 2 computes both. -/
example : setupGroup demoEnv (final demoGEnv itemOps) = .ok [2, 5, 6] := by decide

example : Writes demoGEnv itemOps 2 3 :=
  Or.inl ⟨itemOps.take 1, 1, itemOps.drop 2, rfl, by decide, itemOps.take 1, [], rfl, by decide,
    by simp [itemOps]⟩

/-- The hypotheses of C07 hold for output 3 and the subsystem 5. -/
example : ∃ d, (∀ d', Writes demoGEnv itemOps d' 3 ↔ d' = d) ∧ Before [2, 5, 6] d 5 :=
  c07_outputs_before_subsystem (a := itemOps.take 4) (b := itemOps.drop 5) (nm := "s") item_groupOk
    ⟨itemOps.take 3, .registerOutput "y" 3, [], rfl, rfl, by decide⟩
    (by decide) (noCutFrom_of_kind (itemOps.drop 5)
      (run_ok (itemOps.take 5) (worldOk_init demoGEnv) (by decide)) (by decide) (by decide) (by decide)
      (by decide)) (by decide)

example : Before [1, 3, 4, 7, 6, 9] 4 9 :=
  c09_subsystems_in_order (a := demoOps.take 4) (b := (demoOps.take 9).drop 5) (c := [])
    (nm1 := "s") (nm2 := "t") demo_groupOk (by decide)

example : Before [1, 3, 4, 7, 6, 9] 4 6 :=
  c08_inputs_after_subsystem (a := demoOps.take 4) (b := []) (c := demoOps.drop 6)
    (nm1 := "s") (nm2 := "b") demo_groupOk (by decide) (by decide)
    ((Relation.TransGen.single (show 7 ∈ (final demoGEnv demoOps).deps 6 by decide)).tail
      (show 5 ∈ (final demoGEnv demoOps).deps 7 by decide))

/-- The hypotheses of C10: in the first history the output 6 is not defined, in `demoOps` it is. -/
example : setupGroup demoEnv (final demoGEnv (demoOps.take 8)) = .error .valueError := by
  have hv : ValidFrom demoGEnv (World.init demoGEnv) (demoOps.take 8) := by decide
  have hs : SafeFrom demoGEnv (World.init demoGEnv) (demoOps.take 8) :=
    ⟨trivial, trivial, trivial, trivial, trivial, trivial, trivial, trivial, trivial⟩
  refine c10_undefined_reported (a := demoOps.take 6) (b := (demoOps.take 8).drop 7) (nm := "z")
    (groupOk_of_check hv hs (by decide) 8 pyOrder_ascending (by decide)) (fun h => ?_)
  have := (run_defined_iff (env := demoGEnv) 6 (demoOps.take 8) (worldOk_init demoGEnv) hv hs).2
    (Or.inr h)
  exact absurd this (by decide)

example : ∃ comps, setupGroup demoEnv (final demoGEnv demoOps) = .ok comps := by
  refine c10_defined_accepted demo_groupOk fun out hlt hk => ?_
  have h1 : out = 6 := by
    have h2 : (final demoGEnv demoOps).next = 10 := by decide
    rw [h2] at hlt
    interval_cases out <;> revert hk <;> decide
  subst h1
  exact ⟨demoOps.take 8, .define 6 7, demoOps.drop 9, rfl, rfl, by decide⟩

end OM
