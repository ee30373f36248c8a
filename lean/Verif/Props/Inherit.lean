import Verif.Model.Inherit
import Verif.Lemmas.Resetup
import Verif.Props.Branches
import Verif.Props.GroupApi

/-! # C88: a subclass may inherit and extend `setup` -/

namespace OM
open Spec

variable {genv : GEnv} {senv : SetupEnv}

/-- All calls that a `setup` makes, in order. -/
def SetupCode.calls : SetupCode → List Op
  | .base => []
  | .plain ops => ops
  | .extend before sup after => before ++ sup.calls ++ after

/-- The calls made before any `super().setup()` has returned. -/
def SetupCode.first : SetupCode → List Op
  | .base => []
  | .plain ops => ops
  | .extend before sup _ => before ++ sup.first

/-- Nothing is called after `super().setup()`. -/
def SetupCode.SuperLast : SetupCode → Prop
  | .base => True
  | .plain _ => True
  | .extend _ sup after => after = [] ∧ sup.SuperLast

/-! ## The root has been visited -/

theorem topoIter_root_visits {g D : Graph} {root : Ref} (hD : D root = []) : ∀ (n : Nat) (s : TopoState),
    s.visits root = 1 → (topoIter g D n s).visits root = 1 := by
  intro n
  induction n with
  | zero => intro s h; exact h
  | succ n ih =>
    intro s h
    rw [topoIter]
    cases hs : topoStep g D s with
    | none => exact h
    | some s' =>
      apply ih
      unfold topoStep at hs
      split at hs
      · cases hs
      · rename_i v rest _
        split at hs
        · rename_i hle
          obtain rfl := Option.some.inj hs
          by_cases hv : v = root
          · subst hv; rw [hD, h] at hle; simp at hle
          · simp only [Function.update_of_ne (Ne.symm hv)]; exact h
        · obtain rfl := Option.some.inj hs; exact h

/-- After a setup that ends without exception the root counts as visited. -/
theorem sortExpressions_root {env : SetupEnv} {isIndep : Ref → Bool} {root : Ref} {st st' : GState} {l : List Ref}
    (h : sortExpressions env isIndep root st = .ok (st', l)) (hv : st.visits root ≤ 1) (hd : st.dependents root = []) :
    st'.visits root = 1 ∧ st'.dependents root = [] := by
  have hD : st'.dependents root = [] := by
    obtain ⟨g1, g2, _, _, _, hf, _, _, _⟩ := sortExpressions_inv h
    by_cases hc : ChainsLt g2 root env.limit
    · obtain ⟨D, hD, hDm, _⟩ := addFwdEdges_spec env.ov (d := st.dependents) hc
      rw [hD] at hf
      obtain rfl := Option.some.inj hf
      rw [List.eq_nil_iff_forall_not_mem]
      intro w hw
      rcases (hDm root w).1 hw with h' | ⟨h1, h2⟩
      · simp [hd] at h'
      · exact hc.acyclic root Relation.ReflTransGen.refl (Relation.TransGen.tail' h1 h2)
    · rw [addFwdEdges_none env.ov hc] at hf; cases hf
  refine ⟨?_, hD⟩
  unfold sortExpressions at h
  split at h
  · cases h
  simp only at h
  split at h
  · cases h
  split at h
  · cases h
  split at h
  · cases h
  obtain ⟨h1, _⟩ := Prod.mk.inj (Except.ok.inj h)
  subst h1
  simp only at hD ⊢
  rw [show topoBound _ _ = _ + 1 from rfl, topoIter]
  rcases Nat.le_one_iff_eq_zero_or_eq_one.1 hv with h0 | h1
  · have : ∀ (g D : Graph), D root = [] → topoStep g D ⟨[root], st.visits, []⟩ =
        some ⟨(g root).reverse ++ [], Function.update st.visits root 1, []⟩ := by
      intro g D hD; simp [topoStep, hD, h0]
    rw [this _ _ hD]
    exact topoIter_root_visits hD _ _ (by simp)
  · have : ∀ (g D : Graph), D root = [] → topoStep g D ⟨[root], st.visits, []⟩ = some ⟨[], st.visits, []⟩ := by
      intro g D hD; simp [topoStep, hD, h1]
    simp only [this _ _ hD, topoIter_nil]
    exact h1

theorem postSetup_inv {s s' : SetupState} {comps : List Ref} (h : postSetup senv s = .ok (s', comps)) :
    ∃ st l, sortExpressions senv (fun u => s.world.kind u == .indep) 0
        ⟨s.world.deps, s.dependents, s.visits, s.cost, s.nodes⟩ = .ok (st, l) ∧
      buildAll s.world l.reverse = .ok comps ∧
      s' = ⟨{ s.world with deps := st.deps }, st.dependents, st.visits, st.cost, st.nodes⟩ := by
  unfold postSetup at h
  split at h
  · cases h
  · rename_i st l hs
    split at h
    · cases h
    · rename_i c hb
      obtain ⟨h1, h2⟩ := Prod.mk.inj (Except.ok.inj h)
      exact ⟨st, l, hs, by rw [hb, h2], h1.symm⟩

/-- A setup of a group that was set up before builds nothing. -/
theorem postSetup_stale {s s' : SetupState} {comps : List Ref} (h : postSetup senv s = .ok (s', comps))
    (hv : s.visits 0 = 1) (hd : s.dependents 0 = []) :
    comps = [] ∧ s'.visits 0 = 1 ∧ s'.dependents 0 = [] := by
  obtain ⟨st, l, h1, h2, rfl⟩ := postSetup_inv h
  obtain rfl := sortExpressions_stale senv _ 0 _ hv hd st l h1
  have := sortExpressions_root h1 hv.le hd
  refine ⟨?_, this⟩
  simp only [List.reverse_nil, buildAll, Except.ok.injEq] at h2
  exact h2.symm

theorem run_calls (s : SetupState) (a b : List Op) : (s.calls genv a).calls genv b = s.calls genv (a ++ b) := by
  simp only [SetupState.calls, run_append]

/-- What `setup` adds, if it ends without exception, is what one setup after the first calls adds. -/
theorem runSetup_first (code : SetupCode) : ∀ {s s' : SetupState} {comps : List Ref},
    s.visits 0 ≤ 1 → s.dependents 0 = [] → runSetup genv senv code s = .ok (s', comps) →
    (∃ t, postSetup senv (s.calls genv code.first) = .ok (t, comps)) ∧ s'.visits 0 = 1 ∧ s'.dependents 0 = [] := by
  have hpost : ∀ {s s' : SetupState} {comps : List Ref}, s.visits 0 ≤ 1 → s.dependents 0 = [] →
      postSetup senv s = .ok (s', comps) → s'.visits 0 = 1 ∧ s'.dependents 0 = [] := by
    intro s s' comps hv hd h
    obtain ⟨st, l, h1, _, rfl⟩ := postSetup_inv h
    exact sortExpressions_root h1 hv hd
  induction code with
  | base =>
    intro s s' comps hv hd h
    exact ⟨⟨s', h⟩, hpost hv hd h⟩
  | plain ops =>
    intro s s' comps hv hd h
    exact ⟨⟨s', h⟩, hpost (s := s.calls genv ops) hv hd h⟩
  | extend before sup after ih =>
    intro s s' comps hv hd h
    rw [runSetup] at h
    split at h
    · cases h
    · rename_i s1 c1 h1
      split at h
      · cases h
      · rename_i s2 c2 h2
        obtain ⟨rfl, rfl⟩ := Prod.mk.inj (Except.ok.inj h)
        obtain ⟨⟨t, ht⟩, hv1, hd1⟩ := ih (s := s.calls genv before) hv hd h1
        obtain ⟨rfl, hv2, hd2⟩ := postSetup_stale (s := s1.calls genv after) h2 hv1 hd1
        refine ⟨⟨t, ?_⟩, hv2, hd2⟩
        rw [List.append_nil, SetupCode.first, ← run_calls]
        exact ht

theorem postSetup_world (w : World) :
    (postSetup senv { (SetupState.init genv) with world := w }).map Prod.snd = setupGroup senv w := by
  have hs : (⟨w.deps, (SetupState.init genv).dependents, (SetupState.init genv).visits, (SetupState.init genv).cost,
      (SetupState.init genv).nodes⟩ : GState) = GState.fresh w.deps := rfl
  unfold postSetup setupGroup
  simp only [hs]
  cases sortExpressions senv (fun u => w.kind u == .indep) 0 (GState.fresh w.deps) with
  | error e => rfl
  | ok r =>
    obtain ⟨st, l⟩ := r
    simp only
    cases buildAll w l.reverse <;> rfl

/-- A new group that is set up once. -/
theorem postSetup_init (ops : List Op) :
    (postSetup senv ((SetupState.init genv).calls genv ops)).map Prod.snd = setupGroup senv (final genv ops) :=
  postSetup_world _

/-- **C88, exactly.** If `setup` ends without exception, the components added are those for the calls made before any
`super().setup()` has returned. -/
theorem c88_exact {code : SetupCode} {s : SetupState} {comps : List Ref}
    (h : runSetup genv senv code (SetupState.init genv) = .ok (s, comps)) :
    setupGroup senv (final genv code.first) = .ok comps := by
  obtain ⟨⟨t, ht⟩, _⟩ := runSetup_first code (s := SetupState.init genv) (Nat.zero_le _) rfl h
  rw [← postSetup_init, ht]
  rfl

/-- **C88, violated.** Whatever is called after `super().setup()` is ignored: components, outputs and independent
variables described there are not added, and outputs created there need not be defined. -/
theorem c88_ignored {before after after' : List Op} {sup : SetupCode} {s s' : SetupState} {comps comps' : List Ref}
    (h : runSetup genv senv (.extend before sup after) (SetupState.init genv) = .ok (s, comps))
    (h' : runSetup genv senv (.extend before sup after') (SetupState.init genv) = .ok (s', comps')) : comps = comps' := by
  have h1 := c88_exact h
  have h2 := c88_exact h'
  exact Except.ok.inj (h1.symm.trans h2)

/-! ## What still works -/

/-- The state after a setup of the graph `deps`, with `g1` the same graph with its dependencies on independent
variables: what a further setup needs to succeed. -/
structure SetupDone (isIndep : Ref → Bool) (deps g1 : Graph) (st : GState) : Prop where
  visits : st.visits 0 = 1
  root : st.dependents 0 = []
  sub : ∀ a b, b ∈ st.deps a → b ∈ g1 a
  nodes : ∀ v, v ∈ st.nodes ↔ Needs deps 0 v
  used : ∀ v ∈ st.nodes, st.dependents v ≠ []
  known : ∀ v, v ∈ st.deps 0 → v ∈ st.nodes

theorem setupDone_again {env : SetupEnv} {isIndep : Ref → Bool} {deps g1 : Graph} {n : Nat} (hlim : n + 1 ≤ env.limit)
    (hac : AcyclicFrom deps 0) (hw : WithIndeps deps isIndep 0 g1) (hc1 : ChainsLt g1 0 (n + 1)) {st : GState}
    (h : SetupDone isIndep deps g1 st) :
    ∃ st', sortExpressions env isIndep 0 st = .ok (st', []) ∧ SetupDone isIndep deps g1 st' := by
  obtain ⟨st', hs⟩ := sortExpressions_again env env isIndep 0 deps n hlim st g1 hac hw h.visits h.root h.sub hc1
    h.nodes h.used h.known
  obtain ⟨r1, r2⟩ := sortExpressions_root hs h.visits.le h.root
  obtain ⟨g1', g2, hn, hg1, hg2, hf, _, hd, _⟩ := sortExpressions_inv hs
  rw [registerNodes_all_known (by omega) h.known] at hn
  have hnodes : st'.nodes = st.nodes := (Option.some.inj hn).symm
  have hr : (0 : Ref) ∉ st.nodes := fun h' => hac 0 Relation.ReflTransGen.refl ((h.nodes 0).1 h')
  have hsub : ∀ a b, b ∈ st'.deps a → b ∈ g1 a ∧ (a = 0 → b ∈ st.deps 0) := by
    intro a b hb
    rw [hd, (sortAll_perm _ _ _ _ _).mem_iff, hg2] at hb
    have := removeIndirectAll_subset _ _ _ a b hb
    rw [hg1, hnodes] at this
    rcases ((addIndeps_spec env.ov isIndep 0 st.nodes st.deps hr).1 a b).1 this with h' | ⟨h1, h2, h3, h4⟩
    · exact ⟨h.sub a b h', fun ha => ha ▸ h'⟩
    · refine ⟨(hw a b).2 (Or.inr ⟨(h.nodes a).1 h1, h2, h3, ?_⟩), fun ha => absurd (ha ▸ h1) hr⟩
      rcases (hw 0 b).1 (h.sub 0 b h4) with h5 | ⟨h5, _⟩
      · exact h5
      · exact absurd h5 (hac 0 Relation.ReflTransGen.refl)
  refine ⟨st', hs, r1, r2, fun a b hb => (hsub a b hb).1, by rw [hnodes]; exact h.nodes, ?_, ?_⟩
  · rw [hnodes]
    intro v hv
    by_cases hc : ChainsLt g2 0 env.limit
    · obtain ⟨D, hD, hDm, _⟩ := addFwdEdges_spec env.ov (d := st.dependents) hc
      rw [hD] at hf
      rw [← Option.some.inj hf]
      obtain ⟨w, hw'⟩ := List.exists_mem_of_ne_nil _ (h.used v hv)
      exact List.ne_nil_of_mem ((hDm v w).2 (.inl hw'))
    · rw [addFwdEdges_none env.ov hc] at hf; cases hf
  · intro v hv
    rw [hnodes]
    exact h.known v ((hsub 0 v hv).2 rfl)

theorem runSetup_superLast (code : SetupCode) (hcode : code.SuperLast) : ∀ (pre : List Op),
    GroupOk genv senv (pre ++ code.calls) →
    (∃ e, setupGroup senv (final genv (pre ++ code.calls)) = .error e ∧
      runSetup genv senv code ((SetupState.init genv).calls genv pre) = .error e) ∨
    ∃ s comps, setupGroup senv (final genv (pre ++ code.calls)) = .ok comps ∧
      runSetup genv senv code ((SetupState.init genv).calls genv pre) = .ok (s, comps) ∧
      s.world.kind = (final genv (pre ++ code.calls)).kind ∧
      ∃ g1, WithIndeps (final genv (pre ++ code.calls)).deps
          (fun u => (final genv (pre ++ code.calls)).kind u == .indep) 0 g1 ∧
        (∃ n, n + 1 ≤ senv.limit ∧ ChainsLt g1 0 (n + 1)) ∧
        SetupDone (fun u => (final genv (pre ++ code.calls)).kind u == .indep) (final genv (pre ++ code.calls)).deps g1
          ⟨s.world.deps, s.dependents, s.visits, s.cost, s.nodes⟩ := by
  have hpost : ∀ ops, GroupOk genv senv ops →
      (∃ e, setupGroup senv (final genv ops) = .error e ∧
        postSetup senv ((SetupState.init genv).calls genv ops) = .error e) ∨
      ∃ s comps, setupGroup senv (final genv ops) = .ok comps ∧
        postSetup senv ((SetupState.init genv).calls genv ops) = .ok (s, comps) ∧
        s.world.kind = (final genv ops).kind ∧
        ∃ g1, WithIndeps (final genv ops).deps (fun u => (final genv ops).kind u == .indep) 0 g1 ∧
          (∃ n, n + 1 ≤ senv.limit ∧ ChainsLt g1 0 (n + 1)) ∧
          SetupDone (fun u => (final genv ops).kind u == .indep) (final genv ops).deps g1
            ⟨s.world.deps, s.dependents, s.visits, s.cost, s.nodes⟩ := by
    intro ops hok
    have hmap := postSetup_init (genv := genv) (senv := senv) ops
    cases hp : postSetup senv ((SetupState.init genv).calls genv ops) with
    | error e => rw [hp] at hmap; exact .inl ⟨e, hmap.symm, rfl⟩
    | ok r =>
      obtain ⟨s, comps⟩ := r
      rw [hp] at hmap
      refine .inr ⟨s, comps, hmap.symm, rfl, ?_⟩
      obtain ⟨st, l, h1, _, rfl⟩ := postSetup_inv hp
      obtain ⟨hord, ⟨n, hn, hlim⟩, hnd, hi⟩ := hok.wellFormed
      obtain ⟨st', l', g1, f1, _, _, f4, _, f6, f7, f8, f9, f10, f11, f12⟩ :=
        sortExpressions_fresh senv _ 0 _ n hord hn hlim hnd hi
      have heq : (st, l) = (st', l') := Except.ok.inj (h1.symm.trans f1)
      obtain ⟨rfl, rfl⟩ := Prod.mk.inj heq
      exact ⟨rfl, g1, f4, ⟨n, hlim, f9⟩, f6, f7, f8, f10, f11, f12⟩
  induction code with
  | base =>
    intro pre hok
    have hnil : pre ++ SetupCode.base.calls = pre := by simp [SetupCode.calls]
    rw [hnil] at hok ⊢
    exact hpost _ hok
  | plain ops =>
    intro pre hok
    have := hpost _ hok
    rw [← run_calls] at this
    exact this
  | extend before sup after ih =>
    intro pre hok
    obtain ⟨rfl, hsup⟩ := hcode
    have hcalls : pre ++ (SetupCode.extend before sup []).calls = (pre ++ before) ++ sup.calls := by
      simp [SetupCode.calls]
    rw [hcalls] at hok ⊢
    rcases ih hsup (pre ++ before) hok with ⟨e, h1, h2⟩ | ⟨s, comps, h1, h2, h3, g1, hw, ⟨n, hlim, hc⟩, hset⟩
    · refine .inl ⟨e, h1, ?_⟩
      rw [runSetup, run_calls, h2]
    · obtain ⟨st', k1, k2⟩ := setupDone_again hlim (fun v _ => hok.acyclic v) hw hc hset
      refine .inr ⟨⟨{ s.world with deps := st'.deps }, st'.dependents, st'.visits, st'.cost, st'.nodes⟩, comps, h1, ?_,
        ?_, g1, hw, ⟨n, hlim, hc⟩, k2⟩
      · rw [runSetup, run_calls, h2]
        have hp : postSetup senv (s.calls genv []) = .ok (⟨{ s.world with deps := st'.deps }, st'.dependents,
            st'.visits, st'.cost, st'.nodes⟩, []) := by
          unfold postSetup
          have hw0 : (s.calls genv []).world = s.world := rfl
          rw [hw0, h3]
          show (match sortExpressions senv _ 0 ⟨s.world.deps, s.dependents, s.visits, s.cost, s.nodes⟩ with
            | .error e => _ | .ok (st, sorted) => _) = _
          rw [k1]
          rfl
        simp only [hp, List.append_nil]
      · exact h3

/-- **C88.** If every `setup` of the classes calls `super().setup()` last, or not at all, then the setup raises and adds
what one setup with all calls raises and adds. -/
theorem c88_super_last_partial {code : SetupCode} (hcode : code.SuperLast) (h : GroupOk genv senv code.calls) :
    (runSetup genv senv code (SetupState.init genv)).map Prod.snd = setupGroup senv (final genv code.calls) := by
  rcases runSetup_superLast code hcode [] h with ⟨e, h1, h2⟩ | ⟨s, comps, h1, h2, _⟩
  · have h2 : runSetup genv senv code (SetupState.init genv) = .error e := h2
    have h1 : setupGroup senv (final genv code.calls) = .error e := h1
    rw [h1, h2]; rfl
  · have h2 : runSetup genv senv code (SetupState.init genv) = .ok (s, comps) := h2
    have h1 : setupGroup senv (final genv code.calls) = .ok comps := h1
    rw [h1, h2]; rfl

/-- Whether the setup of a group succeeds does not depend on visits and costs. -/
theorem sortExpressions_other {env : SetupEnv} {isIndep : Ref → Bool} {root : Ref} {deps D : Graph} {v c : Ref → Nat}
    {ns : List Ref} {r : GState × List Ref} (h : sortExpressions env isIndep root ⟨deps, D, v, c, ns⟩ = .ok r)
    (v' c' : Ref → Nat) : ∃ r', sortExpressions env isIndep root ⟨deps, D, v', c', ns⟩ = .ok r' := by
  unfold sortExpressions at h ⊢
  split at h
  · cases h
  next nodes hn =>
  simp only at h hn
  split at h
  · cases h
  next D' hD =>
  split at h
  · cases h
  next hany =>
  have hc : ChainsLt (removeIndirectAll env.oi nodes (addIndeps env.ov isIndep root nodes deps)) root env.limit := by
    by_contra hc
    rw [addFwdEdges_none env.ov hc] at hD
    cases hD
  obtain ⟨k, hk⟩ := dagCost_isSome c' hc
  simp only [hn, hD, hk, if_neg hany]
  exact ⟨_, rfl⟩

/-- `Group.setup` of a new group. -/
theorem postSetup_empty (hlim : 0 < senv.limit) :
    ∃ v c, postSetup senv (SetupState.init genv) = .ok (⟨World.init genv, fun _ => [], v, c, []⟩, []) ∧ v 0 = 1 := by
  obtain ⟨n, hn⟩ := Nat.exists_eq_succ_of_ne_zero hlim.ne'
  have h : sortExpressions senv (fun u => (World.init genv).kind u == .indep) 0
      ⟨fun _ => [], fun _ => [], fun _ => 0, fun _ => 1, []⟩ =
        .ok (⟨fun _ => [], fun _ => [], Function.update (fun _ => 0) 0 1, fun _ => 1, []⟩, []) := by
    simp only [sortExpressions, hn]
    rfl
  refine ⟨Function.update (fun _ => 0) 0 1, fun _ => 1, ?_, by simp⟩
  show (match sortExpressions senv (fun u => (World.init genv).kind u == .indep) 0
      ⟨fun _ => [], fun _ => [], fun _ => 0, fun _ => 1, []⟩ with | .error e => _ | .ok (st, sorted) => _) = _
  rw [h]
  rfl

/-- **C88, violated.** A direct subclass of `Group` whose `setup` begins with `super().setup()` adds nothing, whatever
it calls. -/
theorem c88_super_first {a : List Op} (h : GroupOk genv senv a) :
    (runSetup genv senv (.extend [] .base a) (SetupState.init genv)).map Prod.snd = .ok [] := by
  obtain ⟨v, c, h0, hv⟩ := postSetup_empty (genv := genv) (senv := senv) (by have := h.size; omega)
  obtain ⟨hord, ⟨n, hn, hlim⟩, hnd, hi⟩ := h.wellFormed
  obtain ⟨st, l, _, f1, _⟩ := sortExpressions_fresh senv _ 0 _ n hord hn hlim hnd hi
  obtain ⟨⟨st', l'⟩, h1⟩ := sortExpressions_other f1 v c
  obtain rfl := sortExpressions_stale senv _ 0 _ hv rfl st' l' h1
  have h2 : postSetup senv (SetupState.calls genv ⟨World.init genv, fun _ => [], v, c, []⟩ a) =
      .ok (⟨{ final genv a with deps := st'.deps }, st'.dependents, st'.visits, st'.cost, st'.nodes⟩, []) := by
    show (match sortExpressions senv (fun u => (final genv a).kind u == .indep) 0
      ⟨(final genv a).deps, fun _ => [], v, c, []⟩ with | .error e => _ | .ok (st, sorted) => _) = _
    rw [h1]
    rfl
  have h3 : runSetup genv senv .base ((SetupState.init genv).calls genv []) =
      .ok (⟨World.init genv, fun _ => [], v, c, []⟩, []) := h0
  rw [runSetup, h3]
  simp only [h2]
  rfl

/-- **C88, violated.** The class statement of a subclass that inherits its `setup` raises `KeyError`. -/
theorem c88_needs_setup : classStatement none = .error .keyError := rfl

/-! ## The hypotheses can be met -/

/-- A base class that declares an input and a subclass that registers an output and then calls `super().setup()`. -/
example : (runSetup demoGEnv demoEnv
    (.extend [.declareInput "x"] (.plain [.combine [1], .registerOutput "y" 2]) [])
    (SetupState.init demoGEnv)).map Prod.snd = .ok [2] := by
  refine (c88_super_last_partial ?_ ?_).trans (by decide)
  · exact ⟨rfl, trivial⟩
  · exact groupOk_of_check (by decide) ⟨trivial, trivial, trivial, trivial⟩ (by decide) 8 pyOrder_ascending (by decide)

/-- The usual order: an output of the subclass, registered after `super().setup()`, is never computed. -/
example : (runSetup demoGEnv demoEnv
      (.extend [] (.plain [.declareInput "x", .combine [1], .registerOutput "y" 2])
        [.combine [2], .registerOutput "z" 3])
      (SetupState.init demoGEnv)).map Prod.snd = .ok [2] ∧
    setupGroup demoEnv (final demoGEnv [.declareInput "x", .combine [1], .registerOutput "y" 2, .combine [2],
      .registerOutput "z" 3]) = .ok [2, 3] := by
  decide

/-- An undefined output is not reported after `super().setup()`. -/
example : (runSetup demoGEnv demoEnv (.extend [] .base [.createOutput "y"]) (SetupState.init demoGEnv)).map Prod.snd =
      .ok [] ∧
    setupGroup demoEnv (final demoGEnv [.createOutput "y"]) = .error .valueError := by
  refine ⟨c88_super_first (groupOk_of_check (by decide) ⟨trivial, trivial⟩ (by decide) 8 pyOrder_ascending (by decide)),
    by decide⟩

end OM
