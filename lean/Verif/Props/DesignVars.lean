import Verif.Model.DesignVars
import Verif.Props.GroupApi
import Verif.Lemmas.Names

/-! # C76: design variables, and the errors of the loop that adds components -/

namespace OM
open Spec

/-! ## The loop -/

section loop
variable {isGroup dv : Ref → Bool} {w : World}

/-- The design variables among some expressions. -/
def dvNames (w : World) (dv : Ref → Bool) (l : List Ref) : List String :=
  (l.filter fun u => w.kind u = .indep ∧ dv u = true).map w.name

def compNames (w : World) (isGroup : Ref → Bool) (l : List Ref) : List String :=
  (l.filter w.built).map (compName isGroup w)

theorem compNames_append (l l' : List Ref) :
    compNames w isGroup (l ++ l') = compNames w isGroup l ++ compNames w isGroup l' := by
  simp [compNames]

theorem dvNames_append (l l' : List Ref) : dvNames w dv (l ++ l') = dvNames w dv l ++ dvNames w dv l' := by
  simp [dvNames]

theorem built_indep {u : Ref} (h : w.kind u = .indep) : w.built u = true := by simp [World.built, h]

theorem dv_sublist (l : List Ref) :
    ((dvNames w dv l).map ("comp_" ++ ·)).Sublist (compNames w isGroup l) := by
  induction l with
  | nil => exact List.Sublist.slnil
  | cons u l ih =>
    unfold dvNames compNames at *
    by_cases hd : w.kind u = .indep ∧ dv u = true
    · rw [List.filter_cons_of_pos (by simpa using hd), List.filter_cons_of_pos (built_indep hd.1)]
      have : compName isGroup w u = "comp_" ++ w.name u := by simp [compName, hd.1]
      simp only [List.map_cons, this]
      exact ih.cons_cons _
    · rw [List.filter_cons_of_neg (by simpa using hd)]
      by_cases hb : w.built u = true
      · rw [List.filter_cons_of_pos hb, List.map_cons (l := l.filter w.built)]
        exact ih.cons _
      · rw [List.filter_cons_of_neg hb]
        exact ih

/-- One round, after the expressions `p`. -/
theorem loopStep_eq (p : List Ref) (u : Ref) :
    (w.undefinedOut u → loopStep isGroup dv w ⟨compNames w isGroup p, dvNames w dv p⟩ u =
      .error .valueError) ∧
    (¬ w.undefinedOut u → w.built u = true → compName isGroup w u ∈ compNames w isGroup p →
      loopStep isGroup dv w ⟨compNames w isGroup p, dvNames w dv p⟩ u = .error .runtimeError) ∧
    (¬ w.undefinedOut u → (w.built u = true → compName isGroup w u ∉ compNames w isGroup p) →
      loopStep isGroup dv w ⟨compNames w isGroup p, dvNames w dv p⟩ u =
        .ok ⟨compNames w isGroup (p ++ [u]), dvNames w dv (p ++ [u])⟩) := by
  have hb : w.built u = true ↔
      ¬ (w.kind u = .input ∨ w.kind u = .implicitOut ∨ w.kind u = .item ∨ w.kind u = .root) := by
    simp [World.built]
  refine ⟨fun h => if_pos h, fun h h1 h2 => ?_, fun h h1 => ?_⟩
  · unfold loopStep
    unfold World.undefinedOut at h
    rw [if_neg h, if_neg (hb.1 h1), Added.addSubsystem, if_pos h2]
  · unfold loopStep
    unfold World.undefinedOut at h
    rw [if_neg h, compNames_append, dvNames_append]
    by_cases hk : w.built u = true
    · rw [if_neg (hb.1 hk), Added.addSubsystem, if_neg (h1 hk)]
      have e1 : compNames w isGroup [u] = [compName isGroup w u] := by simp [compNames, hk]
      simp only [e1]
      by_cases hd : w.kind u = .indep ∧ dv u = true
      · have e2 : dvNames w dv [u] = [w.name u] := by simp [dvNames, hd]
        have h3 : w.name u ∉ dvNames w dv p := by
          intro hm
          apply h1 hk
          have : compName isGroup w u = "comp_" ++ w.name u := by simp [compName, hd.1]
          rw [this]
          exact (dv_sublist p).subset (List.mem_map_of_mem hm)
        rw [if_pos hd, Added.addDesignVar, if_neg h3, e2]
      · have e2 : dvNames w dv [u] = [] := by
          unfold dvNames
          rw [List.filter_cons_of_neg (by simpa using hd)]
          rfl
        rw [if_neg hd, e2, List.append_nil]
    · have hk' := hk
      rw [hb, not_not] at hk
      rw [if_pos hk]
      have hd : ¬ (w.kind u = .indep ∧ dv u = true) := fun hd => hk' (built_indep hd.1)
      have e1 : compNames w isGroup [u] = [] := by simp [compNames, hk']
      have e2 : dvNames w dv [u] = [] := by
        unfold dvNames
        rw [List.filter_cons_of_neg (by simpa using hd)]
        rfl
      simp only [if_neg hd, e1, e2, List.append_nil]

/-- The expression at which the loop stops, with the exception. -/
def Stops (w : World) (isGroup : Ref → Bool) (p : List Ref) (u : Ref) (e : SetupError) : Prop :=
  (w.undefinedOut u ∧ e = .valueError) ∨
  (¬ w.undefinedOut u ∧ w.built u = true ∧ e = .runtimeError ∧
    ∃ v ∈ p, w.built v = true ∧ compName isGroup w v = compName isGroup w u)

theorem loop_eq (l : List Ref) : ∀ p : List Ref, (compNames w isGroup p).Nodup →
    (∃ s, l.foldlM (loopStep isGroup dv w) ⟨compNames w isGroup p, dvNames w dv p⟩ = .ok s ∧
      s = ⟨compNames w isGroup (p ++ l), dvNames w dv (p ++ l)⟩ ∧ (∀ u ∈ l, ¬ w.undefinedOut u) ∧
      (compNames w isGroup (p ++ l)).Nodup) ∨
    (∃ e q u r, l.foldlM (loopStep isGroup dv w) ⟨compNames w isGroup p, dvNames w dv p⟩ = .error e ∧
      l = q ++ u :: r ∧ Stops w isGroup (p ++ q) u e ∧ (∀ v ∈ q, ¬ w.undefinedOut v) ∧
      (compNames w isGroup (p ++ q)).Nodup) := by
  induction l with
  | nil =>
    intro p hp
    exact Or.inl ⟨_, rfl, by rw [List.append_nil], by simp, by rwa [List.append_nil]⟩
  | cons u l ih =>
    intro p hp
    obtain ⟨h1, h2, h3⟩ := loopStep_eq (isGroup := isGroup) (dv := dv) (w := w) p u
    rw [List.foldlM_cons]
    by_cases hu : w.undefinedOut u
    · right
      rw [h1 hu]
      exact ⟨_, [], u, l, rfl, rfl, Or.inl ⟨hu, rfl⟩, by simp, by rwa [List.append_nil]⟩
    by_cases hc : w.built u = true ∧ compName isGroup w u ∈ compNames w isGroup p
    · right
      rw [h2 hu hc.1 hc.2]
      obtain ⟨v, hv, hve⟩ := List.mem_map.1 hc.2
      obtain ⟨hv1, hv2⟩ := List.mem_filter.1 hv
      exact ⟨_, [], u, l, rfl, rfl, Or.inr ⟨hu, hc.1, rfl, v, by simpa using hv1, hv2, hve⟩, by simp,
        by rwa [List.append_nil]⟩
    · have hc' : w.built u = true → compName isGroup w u ∉ compNames w isGroup p := fun h h' => hc ⟨h, h'⟩
      rw [h3 hu hc']
      have hp' : (compNames w isGroup (p ++ [u])).Nodup := by
        rw [compNames_append]
        by_cases hb : w.built u = true
        · have e1 : compNames w isGroup [u] = [compName isGroup w u] := by simp [compNames, hb]
          rw [e1, List.nodup_append]
          exact ⟨hp, List.nodup_singleton _, fun a ha b hb' e => hc' hb (by
            rw [List.mem_singleton.1 hb'] at e; exact e ▸ ha)⟩
        · have e1 : compNames w isGroup [u] = [] := by simp [compNames, hb]
          rwa [e1, List.append_nil]
      have ea : ∀ q, p ++ [u] ++ q = p ++ u :: q := fun q => by simp
      rcases ih (p ++ [u]) hp' with ⟨s, hs, he, hd, hn⟩ | ⟨e, q, x, r, hs, he, hst, hd, hn⟩
      · left
        refine ⟨s, hs, by rw [he, ea], ?_, by rwa [ea] at hn⟩
        intro x hx
        rcases List.mem_cons.1 hx with rfl | hx
        · exact hu
        · exact hd x hx
      · right
        refine ⟨e, u :: q, x, r, hs, by rw [he]; rfl, by rwa [ea] at hst, ?_, by rwa [ea] at hn⟩
        intro y hy
        rcases List.mem_cons.1 hy with rfl | hy
        · exact hu
        · exact hd y hy

end loop

/-! ## Independent variables in a history -/

section
variable {genv : GEnv} {ops : List Op}

theorem indep_made (hv : ValidFrom genv (World.init genv) ops) {u : Ref}
    (hk : (final genv ops).kind u = .indep) :
    ∃ a nm b, ops = a ++ .createIndep nm :: b ∧ u = (final genv a).next := by
  induction ops using List.reverseRecOn with
  | nil =>
    simp only [final, run, List.foldl_nil, World.init] at hk
    split at hk <;> cases hk
  | append_singleton a op ih =>
    have hva := (validFrom_append genv a _ _).1 hv
    rw [final_snoc] at hk
    have hold : (final genv a).kind u = .indep →
        ∃ a' nm b, a ++ [op] = a' ++ .createIndep nm :: b ∧ u = (final genv a').next := by
      intro h
      obtain ⟨a', nm, b, e, hu⟩ := ih hva.1 h
      exact ⟨a', nm, b ++ [op], by rw [e]; simp, hu⟩
    rcases step_newKinds (env := genv) (w := final genv a) (op := op) u with h | h
    · exact hold (h.symm.trans hk)
    · rw [hk] at h
      cases op with
      | createIndep nm =>
        by_cases hu : u = (final genv a).next
        · exact ⟨a, nm, [], rfl, hu⟩
        · refine hold ?_
          have hk' : (step genv (final genv a) (.createIndep nm)).1.kind u = (final genv a).kind u := by
            unfold step
            simp only
            rw [World.register_keeps.2.1]
            cases hr : (final genv a).recent <;> exact Function.update_of_ne hu _ _
          rw [← hk', hk]
      | _ => simp [Op.newKinds] at h

theorem indep_facts {a b : List Op} {nm : String}
    (hv : ValidFrom genv (World.init genv) (a ++ .createIndep nm :: b)) :
    (final genv (a ++ .createIndep nm :: b)).kind (final genv a).next = .indep ∧
    (final genv a).next ∈ (final genv (a ++ .createIndep nm :: b)).deps 0 := by
  have hva := (validFrom_append genv a _ _).1 hv
  have oka := run_ok a (worldOk_init genv) hva.1
  have ok1 := step_ok (env := genv) oka hva.2.1
  have hm0 : (final genv a).next ∈ (step genv (final genv a) (.createIndep nm)).1.deps 0 :=
    step_links hva.1 hva.2.1 ⟨rfl, Or.inl rfl⟩
  refine ⟨?_, ?_⟩
  · rw [final_split, final_snoc, run_kind b ok1 hva.2.2 _ (ok1.range _ _ hm0).2]
    unfold step
    simp only
    rw [World.register_keeps.2.1]
    cases hr : (final genv a).recent <;> exact Function.update_self ..
  · rw [final_split, final_snoc]
    exact run_root b ok1 hva.2.2 _ hm0

/-- An independent variable keeps its name: it is an output of the group from the start, so registering
it again raises `ValueError`. -/
theorem indep_name {a b : List Op} {nm : String}
    (hv : ValidFrom genv (World.init genv) (a ++ .createIndep nm :: b)) :
    (final genv (a ++ .createIndep nm :: b)).name (final genv a).next = nm := by
  have e : a ++ .createIndep nm :: b = (a ++ [.createIndep nm]) ++ b := by simp
  obtain ⟨⟨_, h2⟩, _, h4⟩ := made_kind (op := .createIndep nm) hv (u := (final genv a).next) rfl
  have hva := (validFrom_append genv a _ _).1 hv
  have oka := run_ok a (worldOk_init genv) hva.1
  rw [e] at hv ⊢
  rw [name_kept hv h2]
  · rw [final_snoc]
    have hn : (final genv a).next ∉ (final genv a).deps 0 := fun h => (oka.range _ _ h).2.ne rfl
    have hn0 : (0 : Nat) ≠ (final genv a).next := oka.pos.ne
    have hreg : ∀ w' : World, w'.name (final genv a).next = nm →
        (w'.register genv nm (final genv a).next).1.name (final genv a).next = nm := by
      intro w' hw
      by_contra hne
      exact hne (register_name (fun h => hne (h.trans hw))).2.2.2
    unfold step
    simp only
    refine hreg _ ?_
    cases hr : (final genv a).recent <;> exact Function.update_self ..
  · intro b1 nm' b2 hb
    left
    subst hb
    have hv1 : ValidFrom genv (World.init genv) (a ++ .createIndep nm :: b1) := by
      have := ((validFrom_append genv (a ++ .createIndep nm :: b1) (.registerOutput nm' _ :: b2) _).1
        (by simpa using hv)).1
      exact this
    have e2 : a ++ .createIndep nm :: b1 = (a ++ [.createIndep nm]) ++ b1 := by simp
    obtain ⟨h5, h6⟩ := indep_facts hv1
    rw [← e2]
    show ((final genv (a ++ .createIndep nm :: b1)).register genv nm' _).2 ≠ none
    unfold World.register
    rw [h5, if_neg (by decide), if_pos h6]
    simp

/-! ## C76 -/

theorem setupLoop_eq {env : SetupEnv} (h : GroupOk genv env ops) {id : Ref → String}
    (hid : Function.Injective id) (isGroup dv : Ref → Bool) :
    ∃ l, l.Nodup ∧ (∀ v, v ∈ l ↔ Needs (final genv ops).deps 0 v) ∧
      (∀ u v, Needs (final genv ops).deps 0 u → Needs (final genv ops).deps u v → Before l v u) ∧
      setupGroup env (final genv ops) = buildAll (final genv ops) l ∧
      setupLoop env id isGroup dv (final genv ops) =
        l.foldlM (loopStep isGroup dv (final genv ops)) ⟨[], []⟩ := by
  obtain ⟨nodes, hn⟩ := c25_collision_check_never_fires h hid
  obtain ⟨l, g1, h1, h2, h3, h4, h5⟩ := execOrder_ok h.wellFormed
  refine ⟨l, h2, h3, fun u v hu hv => h5 u v ((h3 u).2 hu)
    (needs_mono (fun a b hab => Relation.TransGen.single ((h4 a b).2 (Or.inl hab))) hv), ?_, ?_⟩
  all_goals
    unfold execOrder at h1
    cases hs : sortExpressions env (fun u => (final genv ops).kind u == .indep) 0
      (GState.fresh (final genv ops).deps) with
    | error e => rw [hs] at h1; cases h1
    | ok r =>
      rw [hs] at h1
      simp only [Except.map, Except.ok.injEq] at h1
      first
        | simp only [setupGroup, hs, h1]
        | simp only [setupLoop, hn, hs, h1]

/-- **C76**: if setup succeeds, the design variables of the group are the names of the independent
variables created with `dv=True`, each once; the components are those of `setupNamed`, and the design
variables come in the order of their components. -/
theorem c76_design_vars {env : SetupEnv} (h : GroupOk genv env ops) {id : Ref → String}
    (hid : Function.Injective id) (isGroup dv : Ref → Bool) {s : Added}
    (hs : setupLoop env id isGroup dv (final genv ops) = .ok s) :
    s.dvs.Nodup ∧
    (∀ n, n ∈ s.dvs ↔ ∃ a b, ops = a ++ .createIndep n :: b ∧ dv (final genv a).next = true) ∧
    setupNamed env id isGroup (final genv ops) = .ok s.comps ∧
    (s.dvs.map ("comp_" ++ ·)).Sublist s.comps := by
  obtain ⟨l, h1, h2, h3, h4, h5⟩ := setupLoop_eq h hid isGroup dv
  obtain ⟨nodes, hn⟩ := c25_collision_check_never_fires h hid
  rw [h5] at hs
  rcases loop_eq (isGroup := isGroup) (dv := dv) (w := final genv ops) l [] List.nodup_nil with
    ⟨s', hs', he, hd, hnd⟩ | ⟨e, q, u, r, hs', _⟩
  swap
  · rw [show (⟨compNames (final genv ops) isGroup [], dvNames (final genv ops) dv []⟩ : Added) = ⟨[], []⟩ from
      rfl, hs] at hs'
    cases hs'
  rw [show (⟨compNames (final genv ops) isGroup [], dvNames (final genv ops) dv []⟩ : Added) = ⟨[], []⟩ from
    rfl, hs] at hs'
  cases hs'
  rw [List.nil_append] at he hnd
  subst he
  have hsub := dv_sublist (isGroup := isGroup) (dv := dv) (w := final genv ops) l
  refine ⟨?_, ?_, ?_, hsub⟩
  · exact List.Nodup.of_map _ (hsub.nodup hnd)
  · intro n
    simp only [dvNames, List.mem_map, List.mem_filter, decide_eq_true_eq]
    constructor
    · rintro ⟨u, ⟨hu, hk, hdv⟩, hnm⟩
      obtain ⟨a, nm, b, e, rfl⟩ := indep_made h.valid hk
      have := indep_name (e ▸ h.valid)
      rw [← e, hnm] at this
      subst this
      exact ⟨a, b, e, hdv⟩
    · rintro ⟨a, b, e, hdv⟩
      obtain ⟨h6, h7⟩ := indep_facts (e ▸ h.valid)
      have h8 := indep_name (e ▸ h.valid)
      rw [← e] at h6 h7 h8
      exact ⟨_, ⟨(h2 _).2 (.single h7), h6, hdv⟩, h8⟩
  · unfold setupNamed
    rw [hn, h4, buildAll_ok l hd]
    simp only
    rcases omAddAll_dup ((l.filter (final genv ops).built).map (compName isGroup (final genv ops))) [] with
      ⟨_, h7⟩ | ⟨h6, _⟩
    · exact absurd ⟨hnd, by simp⟩ h7
    · rw [h6]; rfl

/-- **C76**, failure: in an order in which every expression comes after what it needs, the loop raises at
the first expression `u` that is an output without definition (`ValueError`) or would give a component
the name of an earlier one (`RuntimeError`); before it there is neither. So `add_design_var` itself never
raises. Both errors also make `setupNamed` fail. -/
theorem c76_errors {env : SetupEnv} (h : GroupOk genv env ops) {id : Ref → String}
    (hid : Function.Injective id) (isGroup dv : Ref → Bool) {e : SetupError}
    (hs : setupLoop env id isGroup dv (final genv ops) = .error e) :
    (∃ p u r, (p ++ u :: r).Nodup ∧ (∀ v, v ∈ p ++ u :: r ↔ Needs (final genv ops).deps 0 v) ∧
      (∀ x y, Needs (final genv ops).deps 0 x → Needs (final genv ops).deps x y → Before (p ++ u :: r) y x) ∧
      (((final genv ops).undefinedOut u ∧ e = .valueError) ∨
        (¬ (final genv ops).undefinedOut u ∧ (final genv ops).built u = true ∧ e = .runtimeError ∧
          ∃ v ∈ p, (final genv ops).built v = true ∧
            compName isGroup (final genv ops) v = compName isGroup (final genv ops) u)) ∧
      (∀ v ∈ p, ¬ (final genv ops).undefinedOut v) ∧
      ((p.filter (final genv ops).built).map (compName isGroup (final genv ops))).Nodup) ∧
    ∃ e', setupNamed env id isGroup (final genv ops) = .error e' := by
  obtain ⟨l, h1, h2, h3, h4, h5⟩ := setupLoop_eq h hid isGroup dv
  obtain ⟨nodes, hn⟩ := c25_collision_check_never_fires h hid
  rw [h5] at hs
  rcases loop_eq (isGroup := isGroup) (dv := dv) (w := final genv ops) l [] List.nodup_nil with
    ⟨s', hs', _⟩ | ⟨e', q, u, r, hs', hl, hst, hd, hnd⟩
  · rw [show (⟨compNames (final genv ops) isGroup [], dvNames (final genv ops) dv []⟩ : Added) = ⟨[], []⟩ from
      rfl, hs] at hs'
    cases hs'
  rw [show (⟨compNames (final genv ops) isGroup [], dvNames (final genv ops) dv []⟩ : Added) = ⟨[], []⟩ from
    rfl, hs] at hs'
  cases hs'
  rw [List.nil_append] at hst
  rw [List.nil_append] at hnd
  have hul : u ∈ l := by rw [hl]; simp
  have hnm : setupNamed env id isGroup (final genv ops) =
      match buildAll (final genv ops) l with
      | .error e => .error e
      | .ok comps => omAddAll [] (comps.map (compName isGroup (final genv ops))) := by
    unfold setupNamed
    rw [hn]
    simp only [h4]
    cases buildAll (final genv ops) l <;> rfl
  refine ⟨⟨q, u, r, hl ▸ h1, hl ▸ h2, hl ▸ h3, hst, hd, hnd⟩, ?_⟩
  rcases hst with ⟨h6, rfl⟩ | ⟨h6, h7, rfl, v, hv, hv1, hv2⟩
  · refine ⟨.valueError, ?_⟩
    rw [hnm, buildAll_error l ⟨u, hul, h6⟩]
  · have hvl : v ∈ l := by rw [hl]; exact List.mem_append_left _ hv
    have hne : v ≠ u := by
      rintro rfl
      rw [hl, List.nodup_append] at h1
      exact h1.2.2 v hv v (by simp) rfl
    by_cases hdf : ∃ x ∈ l, (final genv ops).undefinedOut x
    · exact ⟨.valueError, by rw [hnm, buildAll_error l hdf]⟩
    · rw [hnm, buildAll_ok l (by simpa using hdf)]
      simp only
      rcases omAddAll_dup ((l.filter (final genv ops).built).map (compName isGroup (final genv ops))) [] with
        ⟨h8, _⟩ | ⟨_, h8, _⟩
      · exact ⟨_, h8⟩
      · exact absurd (List.inj_on_of_nodup_map h8 (List.mem_filter.2 ⟨hvl, hv1⟩)
          (List.mem_filter.2 ⟨hul, h7⟩) hv2) hne

end

/-! ## Concrete cases -/

/-- Two independent variables, the second a design variable, and an expression of both. -/
abbrev dvOps : List Op :=
  [.createIndep "a", .createIndep "b", .combine [1, 2], .registerOutput "y" 3]

example : setupLoop demoEnv (fun u => String.ofList (List.replicate u 'a')) (fun _ => false) (fun u => u == 2)
    (final demoGEnv dvOps) = .ok ⟨["comp_a", "comp_b", "comp_y"], ["b"]⟩ := by decide +kernel

theorem dv_groupOk : GroupOk demoGEnv demoEnv dvOps :=
  groupOk_of_check (by decide) ⟨trivial, trivial, trivial, trivial, trivial⟩ (by decide) 8 pyOrder_ascending
    (by decide)

/-- An expression called like an independent variable: `RuntimeError`; with an output that is never
defined as well, the exception is that of the one that comes first in the order of execution. -/
example : setupLoop demoEnv (fun u => String.ofList (List.replicate u 'a')) (fun _ => false) (fun _ => true)
    (final demoGEnv [.createIndep "a", .combine [1], .registerOutput "a" 2, .createOutput "z"]) =
    .error .runtimeError := by decide +kernel

end OM
