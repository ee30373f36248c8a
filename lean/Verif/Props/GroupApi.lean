import Verif.Lemmas.Edges
import Verif.Props.Define
import Verif.Props.Exec

/-!
# Order and completeness of the components in terms of the user's calls (C01, C02, C06, C12)

Here the claims are about what the user wrote, not about the dependency lists the code keeps: that the
calls record the right dependencies is part of what is proved (`Verif.Lemmas.Edges`). `Op.Links` says
which objects a call builds from which.
-/

namespace OM
open Spec

/-- Some call of the history builds `u` from `v`. -/
def BuiltFrom (genv : GEnv) (ops : List Op) (u v : Ref) : Prop :=
  ∃ a op b, ops = a ++ op :: b ∧ op.Links genv a u v

/-- Some call builds `u` from `v`, and `v` is not later defined by an expression that uses `u`: then the
code makes `u` use the previous value of `v` (C52). -/
def KeptFrom (genv : GEnv) (ops : List Op) (u v : Ref) : Prop :=
  ∃ a op b, ops = a ++ op :: b ∧ op.Links genv a u v ∧
    NoCutFrom genv u v (final genv (a ++ [op])) b

section
variable {genv : GEnv} {env : SetupEnv} {ops : List Op}

theorem KeptFrom.edge (hv : ValidFrom genv (World.init genv) ops)
    (hs : SafeFrom genv (World.init genv) ops) {u v : Ref} (h : KeptFrom genv ops u v) :
    v ∈ (final genv ops).deps u := by
  obtain ⟨a, op, b, rfl, h1, h2⟩ := h
  have hva := (validFrom_append genv a _ _).1 hv
  have hsa := (safeFrom_append genv a _ _).1 hs
  have oka := run_ok a (worldOk_init genv) hva.1
  have aca := run_acyclic a (worldOk_init genv) (acyclic_init genv) hva.1 hsa.1
  rw [final_split]
  have h3 := step_links hva.1 hva.2.1 h1
  rw [final_snoc] at h2 ⊢
  exact run_keeps_edge b (step_ok oka hva.2.1) (step_acyclic oka aca hva.2.1 hsa.2.1) hva.2.2 hsa.2.2
    h2 h3

theorem edge_from (hv : ValidFrom genv (World.init genv) ops)
    (hs : SafeFrom genv (World.init genv) ops) {u v : Ref} (h : v ∈ (final genv ops).deps u) :
    ∃ a op b, ops = a ++ op :: b ∧ (op.Links genv a u v ∨ op.Feeds genv a u v) := by
  induction ops using List.reverseRecOn with
  | nil => simp [final, run, World.init] at h
  | append_singleton a op ih =>
    have hva := (validFrom_append genv a _ _).1 hv
    have hsa := (safeFrom_append genv a _ _).1 hs
    rw [final_snoc] at h
    rcases step_links_only hva.1 hva.2.1 hsa.2.1 h with h | h
    · obtain ⟨a1, op1, b1, rfl, h'⟩ := ih hva.1 hsa.1 h
      exact ⟨a1, op1, b1 ++ [op], by simp, h'⟩
    · exact ⟨a, op, [], rfl, h⟩

/-- Objects of all kinds but outputs and subsystems get their dependencies when they are made. -/
theorem run_leaf {u : Ref} (b : List Op) : ∀ {a : List Op},
    ValidFrom genv (World.init genv) (a ++ b) → SafeFrom genv (World.init genv) (a ++ b) →
    u < (final genv a).next → (final genv a).kind u = .input ∨ (final genv a).kind u = .implicitOut → (final genv a).deps u = [] →
    (final genv (a ++ b)).kind u = (final genv a).kind u ∧ (final genv (a ++ b)).deps u = [] := by
  induction b with
  | nil => intro a _ _ _ _ h2; rw [List.append_nil]; exact ⟨rfl, h2⟩
  | cons op b ih =>
    intro a hv hs hlt hk hd
    have e : a ++ op :: b = (a ++ [op]) ++ b := by simp
    rw [e] at hv hs ⊢
    have hva := (validFrom_append genv (a ++ [op]) _ _).1 hv
    have hsa := (safeFrom_append genv (a ++ [op]) _ _).1 hs
    have hva' := (validFrom_append genv a _ _).1 hva.1
    have hsa' := (safeFrom_append genv a _ _).1 hsa.1
    have oka := run_ok a (worldOk_init genv) hva'.1
    have hkeep := step_keeps (env := genv) oka hva'.2.1
    have hkk : (final genv (a ++ [op])).kind u = (final genv a).kind u := by
      rw [final_snoc, hkeep.2.1 u hlt]
    rw [← hkk]
    refine ih hv hs ?_ (by rw [hkk]; exact hk) ?_
    · rw [final_snoc]; exact lt_of_lt_of_le hlt hkeep.1
    · rw [final_snoc]
      apply List.eq_nil_iff_forall_not_mem.2
      intro v hm
      have hu0 : u ≠ 0 := by
        rintro rfl
        rw [oka.root] at hk
        rcases hk with hk | hk <;> cases hk
      rcases step_links_only hva'.1 hva'.2.1 hsa'.2.1 hm with h | h | h
      · rw [hd] at h; simp at h
      · cases op with
        | declareInput nm => exact absurd h.1 (by omega)
        | createIndep nm =>
          rcases h.2 with h | h
          · exact hu0 h
          · have h' := (recent_iff genv a u).2 h
            obtain ⟨a1, nm', a2, rfl, rfl, _⟩ := h
            have hva1 := (validFrom_append genv a1 _ _).1 hva'.1
            have ok1 := run_ok a1 (worldOk_init genv) hva1.1
            have h3 := (step_addSubsystem (env := genv) ok1 nm')
            have h4 := run_kind (env := genv) a2 (step_ok ok1 hva1.2.1) hva1.2.2 (final genv a1).next
              (by rw [h3.2.2.2.2]; exact Nat.lt_succ_self _)
            rw [final_split, final_snoc, h4, h3.2.2.1] at hk
            rcases hk with hk | hk <;> cases hk
        | createOutput nm => exact hu0 h.1
        | createImplicit nm => exact h.elim
        | combine args => exact absurd h.1 (by omega)
        | getItem x =>
          rcases h with h | h | h
          · exact absurd h.2.1 (by omega)
          · exact absurd h.2.1 (by omega)
          · exact absurd h.1 (by omega)
        | registerOutput nm x => exact hu0 h.1
        | addSubsystem nm =>
          rcases h with h | h
          · exact absurd h.1 (by omega)
          · exact hu0 h.1
        | define out e =>
          obtain ⟨rfl, rfl, h⟩ := h
          unfold step at h
          rcases hk with hk | hk <;> simp [hk] at h
        | setItem out e c =>
          obtain ⟨rfl, rfl, h⟩ := h
          rcases hk with hk | hk <;> · rw [hk] at h; cases h
        | defineResidual out e => exact hu0 h.1
      · cases op with
        | define out e => have := h.2.1; rw [hd] at this; simp at this
        | defineResidual out e => have := h.2.1; rw [hd] at this; simp at this
        | _ => exact h

/-- The input made by `define` has no dependencies. -/
theorem feeds_leaf (hv : ValidFrom genv (World.init genv) ops)
    (hs : SafeFrom genv (World.init genv) ops) {a b : List Op} {op : Op} {u v : Ref}
    (e : ops = a ++ op :: b) (hf : op.Feeds genv a u v) :
    (final genv ops).kind v = .input ∧ (final genv ops).deps v = [] := by
  subst e
  have e' : a ++ op :: b = (a ++ [op]) ++ b := by simp
  rw [e'] at hv hs ⊢
  have hl : (final genv (a ++ [op])).IsLeaf v := by
    rw [final_snoc]
    cases op with
    | define out e => exact hf.2.2
    | defineResidual out e => exact hf.2.2
    | _ => exact hf.elim
  obtain ⟨h1, h2⟩ := run_leaf b hv hs hl.1 (Or.inl hl.2.1) hl.2.2
  exact ⟨h1.trans hl.2.1, h2⟩

theorem needs_from (hv : ValidFrom genv (World.init genv) ops)
    (hs : SafeFrom genv (World.init genv) ops) {u : Ref} (h : Needs (final genv ops).deps 0 u) :
    Relation.TransGen (BuiltFrom genv ops) 0 u ∨
      ((final genv ops).kind u = .input ∧ (final genv ops).deps u = []) := by
  induction h with
  | single h =>
    obtain ⟨a, op, b, e, h1 | h1⟩ := edge_from hv hs h
    · exact Or.inl (.single ⟨a, op, b, e, h1⟩)
    · exact Or.inr (feeds_leaf hv hs e h1)
  | tail _ h ih =>
    rcases ih with ih | ⟨_, ih⟩
    · obtain ⟨a, op, b, e, h1 | h1⟩ := edge_from hv hs h
      · exact Or.inl (ih.tail ⟨a, op, b, e, h1⟩)
      · exact Or.inr (feeds_leaf hv hs e h1)
    · have h' := h
      unfold Edge at h'
      rw [ih] at h'
      simp at h'

theorem fresh_not_implicit (ops : List Op) (hv : ValidFrom genv (World.init genv) ops) :
    ∀ u ≥ (final genv ops).next, (final genv ops).kind u ≠ .implicitOut := by
  induction ops using List.reverseRecOn with
  | nil =>
    intro u _ h
    simp only [final, run, List.foldl_nil, World.init] at h
    split at h <;> cases h
  | append_singleton a op ih =>
    have hva := (validFrom_append genv a _ _).1 hv
    have oka := run_ok a (worldOk_init genv) hva.1
    intro u hu hk
    rw [final_snoc] at hu hk
    have hle := (step_keeps (env := genv) oka hva.2.1).1
    rcases step_newKinds (env := genv) (w := final genv a) (op := op) u with h | h
    · exact ih hva.1 u (le_trans hle hu) (h.symm.trans hk)
    · rw [hk] at h
      cases op with
      | createImplicit nm =>
        have hu' : (final genv a).next + 1 ≤ u := hu
        have hk' : Function.update (final genv a).kind (final genv a).next .implicitOut u =
          .implicitOut := hk
        rw [Function.update_of_ne (by omega)] at hk'
        exact ih hva.1 u (by omega) hk'
      | _ => simp [Op.newKinds] at h

/-- An implicit output has no dependencies. -/
theorem implicit_no_deps (hv : ValidFrom genv (World.init genv) ops)
    (hs : SafeFrom genv (World.init genv) ops) {u : Ref} (hu : (final genv ops).kind u = .implicitOut) :
    (final genv ops).deps u = [] := by
  induction ops using List.reverseRecOn with
  | nil => rfl
  | append_singleton a op ih =>
    have hva := (validFrom_append genv a _ _).1 hv
    have hsa := (safeFrom_append genv a _ _).1 hs
    have oka := run_ok a (worldOk_init genv) hva.1
    have hnew := step_newKinds (env := genv) (w := final genv a) (op := op) u
    rw [← final_snoc, hu] at hnew
    by_cases hlt : u < (final genv a).next
    · have hk := (step_keeps (env := genv) oka hva.2.1).2.1 u hlt
      rw [← final_snoc, hu] at hk
      exact (run_leaf [op] hv hs hlt (Or.inr hk.symm) (ih hva.1 hsa.1 hk.symm)).2
    · rcases hnew with h | h
      · exact absurd h.symm (fresh_not_implicit a hva.1 u (not_lt.1 hlt))
      · cases op with
        | createImplicit nm =>
          rw [final_snoc]
          exact oka.fresh u (not_lt.1 hlt)
        | _ => simp [Op.newKinds] at h

theorem comps_iff (h : GroupOk genv env ops) {comps : List Ref}
    (hc : setupGroup env (final genv ops) = .ok comps) :
    comps.Nodup ∧ ∀ u, u ∈ comps ↔
      Needs (final genv ops).deps 0 u ∧ (final genv ops).built u = true := by
  obtain ⟨l, h2, h3, _, h4⟩ := setupGroup_eq h
  rw [h4] at hc
  by_cases hd : ∃ u ∈ l, (final genv ops).undefinedOut u
  · rw [buildAll_error l hd] at hc; cases hc
  · rw [buildAll_ok l (by simpa using hd)] at hc
    cases hc
    exact ⟨h2.filter _, fun u => by rw [List.mem_filter, h3]⟩

/-- Objects built from others have their dependencies, also if one of them is cut later. -/
theorem needs_of_built (hv : ValidFrom genv (World.init genv) ops)
    (hs : SafeFrom genv (World.init genv) ops) {u : Ref}
    (h : Relation.TransGen (BuiltFrom genv ops) 0 u) :
    Needs (final genv ops).deps 0 u ∨ (final genv ops).kind u = .implicitOut := by
  have ok := run_ok ops (worldOk_init genv) hv
  have houts := run_outs (env := genv) ops (worldOk_init genv) (outs_init genv) hv
  have key : ∀ x v, BuiltFrom genv ops x v → (x = 0 ∨ Needs (final genv ops).deps 0 x) →
      Needs (final genv ops).deps 0 v ∨ (final genv ops).kind v = .implicitOut := by
    rintro x v ⟨a, op, b, e, hl⟩ hx
    by_cases h1 : (final genv ops).kind v = .implicitOut
    · exact Or.inr h1
    left
    have hva := (validFrom_append genv a (op :: b) _).1 (e ▸ hv)
    have oka := run_ok a (worldOk_init genv) hva.1
    have ok1 := step_ok (env := genv) oka hva.2.1
    have hm := step_links hva.1 hva.2.1 hl
    have hr := ok1.range x v hm
    have hkv : (final genv ops).kind v = (step genv (final genv a) op).1.kind v := by
      rw [e, final_split, final_snoc]
      exact run_kind b ok1 hva.2.2 v hr.2
    have hlt : v < (final genv ops).next := by
      refine lt_of_lt_of_le hr.2 ?_
      rw [e, final_split, final_snoc]
      exact run_next b ok1 hva.2.2
    by_cases h2 : (final genv ops).kind v = .explicitOut
    · exact .single (houts v hr.1 hlt h2)
    · have hk : KeptFrom genv ops x v := by
        refine ⟨a, op, b, e, hl, ?_⟩
        rw [final_snoc]
        rw [hkv] at h1 h2
        exact noCutFrom_of_kind b ok1 hva.2.2 hr.2 h2 h1
      rcases hx with rfl | hx
      · exact .single (hk.edge hv hs)
      · exact hx.tail (hk.edge hv hs)
  induction h with
  | single h => exact key _ _ h (Or.inl rfl)
  | tail _ h ih =>
    rename_i x v _
    rcases ih with ih | ih
    · exact key _ _ h (Or.inr ih)
    · exfalso
      obtain ⟨a, op, b, e, hl⟩ := h
      subst e
      have hva := (validFrom_append genv a (op :: b) _).1 hv
      have hsa := (safeFrom_append genv a (op :: b) _).1 hs
      have oka := run_ok a (worldOk_init genv) hva.1
      have ok1 := step_ok (env := genv) oka hva.2.1
      have hm := step_links hva.1 hva.2.1 hl
      rw [← final_snoc] at hm
      have hx : x < (final genv (a ++ [op])).next := by
        by_contra hc
        rw [final_snoc] at hm hc
        rw [ok1.fresh x (not_lt.1 hc)] at hm
        simp at hm
      rw [final_split, run_kind b (by rw [final_snoc]; exact ok1) (by rw [final_snoc]; exact hva.2.2) x
        hx] at ih
      have hv1 : ValidFrom genv (World.init genv) (a ++ [op]) :=
        (validFrom_append genv a _ _).2 ⟨hva.1, hva.2.1, trivial⟩
      have hs1 : SafeFrom genv (World.init genv) (a ++ [op]) :=
        (safeFrom_append genv a _ _).2 ⟨hsa.1, hsa.2.1, trivial⟩
      rw [implicit_no_deps hv1 hs1 ih] at hm
      simp at hm

/-- **C02** in terms of calls: every object gives exactly one component if an output of the group, or a
subsystem, is built from it, directly or not; there are no other components. Inputs, implicit outputs and
expressions `x[key]` have no component of their own: the last are written by the component of `x`'s
decomposition, which they are built from. -/
theorem c02_group (h : GroupOk genv env ops) {comps : List Ref}
    (hc : setupGroup env (final genv ops) = .ok comps) (u : Ref) :
    comps.count u ≤ 1 ∧
    (u ∈ comps ↔ Relation.TransGen (BuiltFrom genv ops) 0 u ∧
      (final genv ops).kind u ≠ .input ∧ (final genv ops).kind u ≠ .implicitOut ∧
      (final genv ops).kind u ≠ .item) := by
  obtain ⟨hn, hm⟩ := comps_iff h hc
  refine ⟨List.nodup_iff_count_le_one.1 hn u, ?_⟩
  rw [hm]
  constructor
  · rintro ⟨h1, h2⟩
    have h3 : (final genv ops).kind u ≠ .input ∧ (final genv ops).kind u ≠ .implicitOut ∧
        (final genv ops).kind u ≠ .item := by
      simp only [World.built] at h2
      refine ⟨?_, ?_, ?_⟩ <;> · intro hk; simp [hk] at h2
    rcases needs_from h.valid h.safe h1 with h4 | h4
    · exact ⟨h4, h3⟩
    · exact absurd h4.1 h3.1
  · rintro ⟨h1, h2, h3, h3'⟩
    rcases needs_of_built h.valid h.safe h1 with h4 | h4
    · refine ⟨h4, ?_⟩
      have hu : u ≠ 0 := by
        obtain ⟨c, _, hc⟩ := Relation.TransGen.tail'_iff.1 h4
        exact (h.ok.range c u hc).1.ne'
      have := final_kind_root genv ops u hu
      simp [World.built, h2, h3, h3', this]
    · exact absurd h4 h3

/-- **C01** in terms of calls: the component of `u` comes after the component that computes any `v` from
which `u` is built, directly or not (the component `d` of `v` itself, or that of the decomposition of `x`
if `v` is some `x[key]`). The dependency of an expression on an output that is later defined by an
expression using it does not count (`KeptFrom`): it is a feedback, and no order could satisfy it. -/
theorem c01_group (h : GroupOk genv env ops) {comps : List Ref}
    (hc : setupGroup env (final genv ops) = .ok comps) {u v : Ref} (hu : u ∈ comps)
    (huv : Relation.TransGen (KeptFrom genv ops) u v) (hv1 : (final genv ops).kind v ≠ .input)
    (hv2 : (final genv ops).kind v ≠ .implicitOut) :
    ∃ d, (∀ d', Writes genv ops d' v ↔ d' = d) ∧ Before comps d u := by
  obtain ⟨_, hm⟩ := comps_iff h hc
  have hn : Needs (final genv ops).deps u v :=
    Relation.TransGen.mono (fun _ _ h' => h'.edge h.valid h.safe) _ _ huv
  have hv0 : v ≠ 0 := by
    obtain ⟨c, _, hc⟩ := Relation.TransGen.tail'_iff.1 hn
    exact (h.ok.range c v hc).1.ne'
  obtain ⟨d, hd, hd1⟩ := exists_writer h.valid v
  exact ⟨d, fun d' => ⟨hd1 d', fun e => e ▸ hd⟩,
    setupGroup_before h hc ((hm u).1 hu).1 (writes_needs h.valid h.safe hd hn) ((hm u).1 hu).2
      (writes_built h.valid hd (final_kind_root genv ops v hv0) hv1 hv2)⟩

/-- **C06** in terms of calls: every independent variable comes before every component of another
kind, wherever in the history it is created. -/
theorem c06_group {a b : List Op} {nm : String} (h : GroupOk genv env (a ++ .createIndep nm :: b))
    {comps : List Ref} (hc : setupGroup env (final genv (a ++ .createIndep nm :: b)) = .ok comps)
    {u : Ref} (hu : u ∈ comps) (hk : (final genv (a ++ .createIndep nm :: b)).kind u ≠ .indep) :
    Before comps (final genv a).next u := by
  have hl : BuiltFrom genv (a ++ .createIndep nm :: b) 0 (final genv a).next :=
    ⟨a, _, b, rfl, rfl, Or.inl rfl⟩
  have hva := (validFrom_append genv a _ _).1 h.valid
  have oka := run_ok a (worldOk_init genv) hva.1
  have ok1 := step_ok (env := genv) oka hva.2.1
  have hm0 : (final genv a).next ∈ (step genv (final genv a) (.createIndep nm)).1.deps 0 :=
    step_links hva.1 hva.2.1 ⟨rfl, Or.inl rfl⟩
  have hmem : (final genv a).next ∈ (final genv (a ++ .createIndep nm :: b)).deps 0 := by
    rw [final_split, final_snoc]
    exact run_root b ok1 hva.2.2 _ hm0
  have hki : (final genv (a ++ .createIndep nm :: b)).kind (final genv a).next = .indep := by
    rw [final_split, final_snoc, run_kind b ok1 hva.2.2 _ (ok1.range _ _ hm0).2]
    unfold step
    simp only
    rw [World.register_keeps.2.1]
    cases hr : (final genv a).recent <;>
    · show Function.update (final genv a).kind (final genv a).next .indep (final genv a).next = _
      rw [Function.update_self]
  obtain ⟨l, h1, h2⟩ := c06_indeps_first h.wellFormed
  have he : setupGroup env (final genv (a ++ .createIndep nm :: b)) =
      buildAll (final genv (a ++ .createIndep nm :: b)) l := by
    unfold setupGroup
    unfold execOrder at h1
    cases hs : sortExpressions env
        (fun u => (final genv (a ++ .createIndep nm :: b)).kind u == .indep) 0
        (GState.fresh (final genv (a ++ .createIndep nm :: b)).deps) with
    | error e => rw [hs] at h1; cases h1
    | ok r =>
      rw [hs] at h1
      simp only [Except.map, Except.ok.injEq] at h1
      simp only [h1]
  rw [he] at hc
  by_cases hd : ∃ u ∈ l, (final genv (a ++ .createIndep nm :: b)).undefinedOut u
  · rw [buildAll_error l hd] at hc; cases hc
  · rw [buildAll_ok l (by simpa using hd)] at hc
    cases hc
    obtain ⟨hu1, hu2⟩ := List.mem_filter.1 hu
    exact before_filter _ (h2 _ hmem (by simp [hki]) u hu1 (by simpa using hk))
      (by simp [World.built, hki]) hu2

/-- **C12** in terms of calls: each component may read what other components write if its object is built
from theirs, directly or not; names may be anything else (inputs of the group). Then one run leaves in
every variable the value found by recursive evaluation. -/
theorem c12_group_calls {V : String → Type} (h : GroupOk genv env ops) {comps : List Ref}
    (hc : setupGroup env (final genv ops) = .ok comps) {comp : Ref → Comp V}
    (own : ∀ u ∈ comps, ∀ v ∈ comps, ∀ n ∈ (comp u).writes, n ∈ (comp v).writes → u = v)
    (reads : ∀ u ∈ comps, ∀ n ∈ (comp u).reads, (∀ v ∈ comps, n ∉ (comp v).writes) ∨
      ∃ v ∈ comps, Relation.TransGen (KeptFrom genv ops) u v ∧ n ∈ (comp v).writes)
    (init : Store V) (n : String) (v : V n) :
    runAll (comps.map comp) init n = v ↔ Eval (· ∈ comps) comp init n v := by
  obtain ⟨_, hm⟩ := comps_iff h hc
  rw [c12_group_values h hc (comp := comp) ⟨?_, ?_⟩ init n v]
  · constructor
    · exact eval_congr fun u => (hm u).symm
    · exact eval_congr hm
  · intro u v n hu hv h1 h2
    exact own u ((hm u).2 hu) v ((hm v).2 hv) n h1 h2
  · intro u hu n hn
    rcases reads u ((hm u).2 hu) n hn with h1 | ⟨v, h1, h2, h3⟩
    · exact Or.inl fun v hv => h1 v ((hm v).2 hv)
    · exact Or.inr ⟨v, (hm v).1 h1,
        Relation.TransGen.mono (fun _ _ h' => h'.edge h.valid h.safe) _ _ h2, h3⟩

end

/-! ## Concrete cases -/

/-- Object 7 of `demoOps` is built from 5, an input that follows subsystem 4, built from 3. -/
example : ∃ d, (∀ d', Writes demoGEnv demoOps d' 3 ↔ d' = d) ∧ Before [1, 3, 4, 7, 6, 9] d 7 := by
  refine c01_group demo_groupOk (ops := demoOps) (u := 7) (v := 3) (by decide) (by decide)
    (.tail (b := 4) (.tail (b := 5) (.single ?_) ?_) ?_) (by decide) (by decide)
  · exact ⟨demoOps.take 7, .combine [5, 6], demoOps.drop 8, rfl, ⟨by decide, by decide⟩,
      noCutFrom_of_kind (env := demoGEnv) (demoOps.drop 8)
        (run_ok (demoOps.take 8) (worldOk_init demoGEnv) (by decide)) (by decide) (by decide)
        (by decide) (by decide)⟩
  · exact ⟨demoOps.take 5, .declareInput "b", demoOps.drop 6, rfl,
      ⟨by decide, demoOps.take 4, "s", [], rfl, by decide, by simp⟩,
      noCutFrom_of_kind (env := demoGEnv) (demoOps.drop 6)
        (run_ok (demoOps.take 6) (worldOk_init demoGEnv) (by decide)) (by decide) (by decide)
        (by decide) (by decide)⟩
  · exact ⟨demoOps.take 4, .addSubsystem "s", demoOps.drop 5, rfl,
      Or.inl ⟨by decide, demoOps.take 3, .registerOutput "y" 3, [], rfl, rfl, by decide⟩,
      noCutFrom_of_kind (env := demoGEnv) (demoOps.drop 5)
        (run_ok (demoOps.take 5) (worldOk_init demoGEnv) (by decide)) (by decide) (by decide)
        (by decide) (by decide)⟩

example : 3 ∈ [1, 3, 4, 7, 6, 9] ↔ Relation.TransGen (BuiltFrom demoGEnv demoOps) 0 3 ∧
    (final demoGEnv demoOps).kind 3 ≠ .input ∧ (final demoGEnv demoOps).kind 3 ≠ .implicitOut ∧
    (final demoGEnv demoOps).kind 3 ≠ .item :=
  (c02_group demo_groupOk (by decide) 3).2

example : Before [1, 3, 4, 7, 6, 9] 1 7 :=
  c06_group (a := []) (b := demoOps.drop 1) (nm := "a") demo_groupOk (by decide) (by decide) (by decide)

/-- `y = 2 a`, with the independent variable `a = 3`. -/
abbrev doubleComp : Ref → Comp fun _ => Int :=
  exprComp (fun _ => False) (fun u => if u = 1 then "a" else "y")
    (fun u => if u = 2 then [1] else []) (fun u l => if u = 1 then 3 else 2 * l.headD 0)

example : Eval (· ∈ [1, 2]) doubleComp (fun _ => (0 : Int)) "y" 6 := by
  have h : GroupOk demoGEnv demoEnv [.createIndep "a", .combine [1], .registerOutput "y" 2] :=
    groupOk_of_check (by decide) ⟨trivial, trivial, trivial, trivial⟩ (by decide) 8 pyOrder_ascending
      (by decide)
  refine (c12_group_calls h (comps := [1, 2]) (by decide) ?_ ?_ (fun _ => (0 : Int)) "y" 6).1 (by decide)
  · simp [exprComp, doubleComp]
  · intro u hu n hn
    simp only [List.mem_cons, List.not_mem_nil, or_false] at hu
    rcases hu with rfl | rfl
    · simp [exprComp, doubleComp] at hn
    · refine Or.inr ⟨1, by simp, .single ⟨[.createIndep "a"], .combine [1], [.registerOutput "y" 2], rfl,
        ⟨by decide, by simp⟩, ⟨fun h => h, trivial⟩⟩, ?_⟩
      simpa [exprComp, doubleComp] using hn

/-- The names of two variables or subsystems lead to one name in OpenMDAO's group: groups are added under their own
name, everything else with the prefix `comp_`. -/
def Spec.Clash (w : World) (isGroup : Ref → Bool) (u v : Ref) : Prop :=
  let Grp (x : Ref) : Prop := w.kind x = .subsystem ∧ isGroup x = true
  (w.name u = w.name v ∧ (Grp u ↔ Grp v)) ∨ (Grp u ∧ ¬ Grp v ∧ w.name u = "comp_" ++ w.name v) ∨
    (¬ Grp u ∧ Grp v ∧ "comp_" ++ w.name u = w.name v)

/-- **C25**, exactly: setup succeeds if and only if no two names clash; otherwise OpenMDAO refuses a component. In
particular an expression and a group may have one name. -/
theorem c25_setup_exact {genv : GEnv} {env : SetupEnv} {ops : List Op}
    (h : GroupOk genv env ops) {id : Ref → String} (hid : Function.Injective id)
    (isGroup : Ref → Bool) {comps : List Ref} (hc : setupGroup env (final genv ops) = .ok comps) :
    ((∃ u ∈ comps, ∃ v ∈ comps, u ≠ v ∧ Clash (final genv ops) isGroup u v) →
      setupNamed env id isGroup (final genv ops) = .error .runtimeError) ∧
    ((∀ u ∈ comps, ∀ v ∈ comps, u ≠ v → ¬ Clash (final genv ops) isGroup u v) →
      ∃ names, setupNamed env id isGroup (final genv ops) = .ok names) := by
  obtain ⟨nodes, hn⟩ := c25_collision_check_never_fires h hid
  have hiff : ∀ u v, compName isGroup (final genv ops) u = compName isGroup (final genv ops) v ↔
      Clash (final genv ops) isGroup u v := by
    intro u v
    unfold compName Clash
    by_cases hu : (final genv ops).kind u = .subsystem ∧ isGroup u = true <;>
      by_cases hv : (final genv ops).kind v = .subsystem ∧ isGroup v = true <;>
      simp only [hu, hv, if_true, if_false, and_self, true_and, false_and, not_true_eq_false, not_false_eq_true,
        and_true, and_false, or_false, false_or, iff_true, iff_false, iff_self] <;>
      first
        | exact Iff.rfl
        | exact String.append_right_inj _
  unfold setupNamed
  simp only [hn, hc]
  rcases omAddAll_dup (comps.map (compName isGroup (final genv ops))) [] with ⟨h1, h2⟩ | ⟨h1, h2, _⟩
  · refine ⟨fun _ => h1, fun hall => ?_⟩
    exfalso
    refine h2 ⟨?_, by simp⟩
    refine List.Nodup.map_on (fun u hu v hv huv => ?_) (comps_iff h hc).1
    by_contra hne
    exact hall u hu v hv hne ((hiff u v).1 huv)
  · refine ⟨?_, fun _ => ⟨_, h1⟩⟩
    rintro ⟨u, hu, v, hv, huv, hcl⟩
    exact absurd (List.inj_on_of_nodup_map h2 hu hv ((hiff u v).2 hcl)) huv

/-- An expression and a group called `y`: no clash. A group called `comp_y` clashes with the expression. -/
example : Clash (final demoGEnv [.declareInput "x", .combine [1], .registerOutput "y" 2, .addSubsystem "comp_y"])
      (fun _ => true) 2 3 ∧
    ¬ Clash (final demoGEnv [.declareInput "x", .combine [1], .registerOutput "y" 2, .addSubsystem "y"])
      (fun _ => true) 2 3 := by
  unfold Clash; decide

end OM
