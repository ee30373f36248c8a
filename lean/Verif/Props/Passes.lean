import Verif.Props.Order
import Verif.Lemmas.Resetup

/-!
# The passes of setup on arbitrary graphs (C03, C04, C05, C11, C58)
-/

namespace OM
open Spec

/-! ## C03: the sort ends for every graph -/

/-- **C03.** For every finite graph, cyclic or not, with any `dependents` lists and any numbers of
earlier visits, the loop of `topological_sort` ends after at most `2 · edges + 1` iterations. -/
theorem c03_terminates (g dependents : Graph) (visits : Ref → Nat) (root : Ref) (univ : List Ref)
    (hn : univ.Nodup) (hroot : root ∈ univ) (hclosed : ∀ v ∈ univ, ∀ w ∈ g v, w ∈ univ) :
    (topoIter g dependents (2 * (univ.map fun v => (g v).length).sum + 1)
      ⟨[root], visits, []⟩).stack = [] := by
  apply topoIter_terminates g dependents univ hn hclosed
  · intro v hv
    simp only [List.mem_singleton] at hv
    exact hv ▸ hroot
  · have := topoPotential_sum_le g dependents univ visits
    unfold topoMeasure
    simp only [List.length_singleton]
    omega

/-- **C03.** When `dependents` holds the inverse edges and nothing depends on the root, the sorted
list holds exactly the nodes the root depends on that are not below a cycle: nodes on a cycle, and
everything those depend on, are silently left out. -/
theorem c03_cyclic_nodes_dropped (g dependents : Graph) (root : Ref) (univ : List Ref)
    (hn : univ.Nodup) (hroot : root ∈ univ) (hclosed : ∀ v ∈ univ, ∀ w ∈ g v, w ∈ univ)
    (hg : ∀ u, (g u).Nodup) (hd : ∀ v, (dependents v).Nodup)
    (hinv : ∀ v u, u ∈ dependents v ↔ Reach g root u ∧ v ∈ g u)
    (hnoroot : dependents root = []) (v : Ref) :
    v ∈ (topoIter g dependents (2 * (univ.map fun v => (g v).length).sum + 1)
        ⟨[root], fun _ => 0, []⟩).sorted ↔
      Needs g root v ∧ ¬ ∃ c, Reach g root c ∧ Needs g c c ∧ Reach g c v := by
  have ok : TopoOk g dependents root := ⟨fun u _ => hg u, hd, hinv, hnoroot⟩
  have hempty := c03_terminates g dependents (fun _ => 0) root univ hn hroot hclosed
  refine topo_mem_iff ok ?_ hempty univ ?_ v
  · obtain ⟨s1, h1, h2⟩ := topoInv_first ok (fun _ => 0) (fun _ => rfl)
    simp only [topoIter, h1]
    exact topoInv_iter ok _ h2
  · intro w hw
    induction hw with
    | refl => exact hroot
    | tail _ h ih => exact hclosed _ ih _ h

/-- `1 → 2 → 3 → 2`, `0 → 1`, `0 → 4`, `3 → 4`: only `1` is sorted, `4` is lost with the cycle. -/
example : (topoIter (ofAdj [[1, 4], [2], [3], [2, 4], []]) (ofAdj [[], [0], [1, 3], [2], [0, 3]])
    (2 * 6 + 1) ⟨[0], fun _ => 0, []⟩).sorted = [1] := by decide

/-! ## C04: removing indirect dependencies -/

/-- **C04.** On an acyclic graph, the removal of indirect dependencies of any list of nodes, in any
order, only removes edges, and "depends on, directly or indirectly" is unchanged. -/
theorem c04_removal_keeps_constraints (oi : SetOrder Nat) (k : Nat) (hasc : AscendingBelow oi k)
    (nodes : List Ref) (g : Graph) (hk : ∀ u ∈ nodes, (g u).length ≤ k) (hn : ∀ u ∈ nodes, (g u).Nodup)
    (hac : ∀ u ∈ nodes, AcyclicFrom g u) :
    (∀ a b, Needs (removeIndirectAll oi nodes g) a b ↔ Needs g a b) ∧
    (∀ a b, b ∈ removeIndirectAll oi nodes g a → b ∈ g a) := by
  obtain ⟨h1, h2, _⟩ := removeIndirectAll_spec oi hasc nodes g hk hn hac
  exact ⟨h1, fun a b hb => (h2 a).subset hb⟩

/-- **C04.** The same for the calls made by setup, in groups with any number of independent variables: `g1` is the graph
in which every needed expression depends on them, `nodes` are the needed expressions. -/
theorem c04_removal_in_setup (oi : SetOrder Nat) (isIndep : Ref → Bool) (root : Ref) (deps g1 : Graph) (nodes : List Ref)
    (hnodes : ∀ v, v ∈ nodes ↔ Needs deps root v) (hg : WithIndeps deps isIndep root g1)
    (hord : ∀ u, Needs deps root u → OrderOk oi deps ((deps root).filter isIndep).length u)
    (hroot : (deps root).Nodup) (hleaf : ∀ i, Needs deps root i → isIndep i = true → deps i = [])
    (hn : ∀ u ∈ nodes, (g1 u).Nodup) (hac : ∀ u ∈ nodes, AcyclicFrom g1 u) :
    (∀ a b, Needs (removeIndirectAll oi nodes g1) a b ↔ Needs g1 a b) ∧
    (∀ a b, b ∈ removeIndirectAll oi nodes g1 a → b ∈ g1 a) := by
  obtain ⟨h1, h2, _⟩ := removeIndirectAll_indeps oi isIndep root deps g1 nodes hnodes
    (fun a b => by rw [hg, hnodes]) hord hroot hleaf hn hac
  exact ⟨h1, fun a b hb => (h2 a).subset hb⟩

/-- The pass does remove something: `1` needs `3` through `2` too. -/
example : removeIndirectAll pyOrder [1, 2, 3] (ofAdj [[1], [2, 3], [3], []]) 1 = [2] := by decide

/-! ## C05: dependence on the iteration order of sets of integers -/

/-- Expression `1` has ten direct dependencies `2 … 11`; `3` needs `10`, `4` needs `2`; outputs `1`
and `11` are registered. -/
def tenDeps : Graph :=
  ofAdj [[1, 11], [2, 3, 4, 5, 6, 7, 8, 9, 10, 11], [], [10], [2], [], [], [], [], [], [], []]

/-- CPython's order of sets of integers (`demoEnv.oi`). -/
def eightZeroEnv : SetupEnv := { demoEnv with reverse := false }

/-- **C05, refuted.** With CPython's order of a set of integers, an acyclic group is executed in an
order that runs expression `1` before expression `11`, which it depends on directly. -/
theorem c05_order_of_int_sets_matters :
    eightZeroEnv.oi = pyOrder ∧ AcyclicFrom tenDeps 0 ∧ 11 ∈ tenDeps 1 ∧
    ∃ l, execOrder eightZeroEnv (fun _ => false) 0 (GState.fresh tenDeps) = .ok l ∧
      Before l 1 11 ∧ l.Nodup := by
  refine ⟨rfl, ofAdj_acyclic (fun u => [9, 8, 0, 5, 5, 0, 0, 0, 0, 0, 0, 0].getD u 0) (by decide) 0,
    by decide, [5, 6, 7, 8, 9, 10, 3, 2, 4, 1, 11], by decide,
    ⟨[5, 6, 7, 8, 9, 10, 3, 2, 4], [], [], by decide⟩, by decide⟩

/-- **C05, refuted.** Without the registration of `11`, setup of the same group fails with the
`TypeError` of `del node[name]`. -/
theorem c05_order_of_int_sets_breaks_setup :
    execOrder eightZeroEnv (fun _ => false) 0
      (GState.fresh (Function.update tenDeps 0 [1])) = .error .typeError := by decide

/-- **C05, partial.** What holds: any two runs whose integer sets are iterated in ascending order
(see `WellFormed` for what this means in CPython) execute the same components exactly once,
both respecting all dependencies, whatever the order of the sets of objects.
Missing for the full claim: it is false when integer sets are iterated otherwise, see above. -/
theorem c05_same_components_partial {env env' : SetupEnv} {isIndep : Ref → Bool} {root : Ref}
    {deps : Graph} (h : WellFormed env isIndep root deps) (h' : WellFormed env' isIndep root deps) :
    ∃ l l', execOrder env isIndep root (GState.fresh deps) = .ok l ∧
      execOrder env' isIndep root (GState.fresh deps) = .ok l' ∧ l.Perm l' ∧
      ∀ u v, Needs deps root u → Needs deps u v → Before l v u ∧ Before l' v u := by
  obtain ⟨l, _, h1, h2, h3, _⟩ := execOrder_ok h
  obtain ⟨l', _, h1', h2', h3', _⟩ := execOrder_ok h'
  obtain ⟨m, c1, c2⟩ := c01_execution_order h
  obtain ⟨m', c1', c2'⟩ := c01_execution_order h'
  rw [h1] at c1
  rw [h1'] at c1'
  cases c1
  cases c1'
  refine ⟨l, l', h1, h1', ?_, fun u v hu hv => ⟨c2 u v hu hv, c2' u v hu hv⟩⟩
  rw [List.perm_ext_iff_of_nodup h2 h2']
  intro a
  rw [h3, h3']

/-! ## C11: setting up the same group object again -/

/-- **C11, refuted.** After any successful setup of a group, a second setup of the same group object,
whatever the user's `setup` describes the second time (any new expressions added to `deps'`) and
however sets are ordered, either fails or builds no component at all. -/
theorem c11_second_setup_builds_nothing {env env' : SetupEnv} {isIndep isIndep' : Ref → Bool}
    {root : Ref} {deps : Graph} (h : WellFormed env isIndep root deps) :
    ∃ st l, sortExpressions env isIndep root (GState.fresh deps) = .ok (st, l) ∧
      ∀ deps' l', execOrder env' isIndep' root { st with deps := deps' } = .ok l' → l' = [] := by
  obtain ⟨hord, ⟨n, hn, hlim⟩, hnd, hi⟩ := h
  obtain ⟨st, l, g1, h1, _, _, _, _, h6, h7, _⟩ :=
    sortExpressions_fresh env isIndep root deps n hord hn hlim hnd hi
  refine ⟨st, l, h1, fun deps' l' h => ?_⟩
  unfold execOrder at h
  cases hs : sortExpressions env' isIndep' root { st with deps := deps' } with
  | error e => simp [hs, Except.map] at h
  | ok r =>
    have := sortExpressions_stale env' isIndep' root { st with deps := deps' } h6 h7 r.1 r.2 hs
    rw [hs] at h
    simp only [Except.map, Except.ok.injEq] at h
    rw [← h, this]
    rfl

/-- Not only failing: the group of `demo_wellFormed` set up twice succeeds and is empty. -/
example : ((sortExpressions demoEnv (· == 5) 0 (GState.fresh demoDeps)).toOption.map fun r =>
    execOrder demoEnv (· == 5) 0 r.1) = some (.ok []) := by decide

/-- **C59.** `create_group` runs the setup of the child group when the `with` block ends, and OpenMDAO
runs it again, with nothing described in between (`Group.setup` is empty, group.py 170-171): both runs
succeed, and over both runs every needed expression is built exactly once. -/
theorem c59_create_group_builds_once {env env' : SetupEnv} {isIndep : Ref → Bool}
    {root : Ref} {deps : Graph} (h : WellFormed env isIndep root deps)
    (hlim : env.limit ≤ env'.limit) :
    ∃ st l l', sortExpressions env isIndep root (GState.fresh deps) = .ok (st, l) ∧
      execOrder env' isIndep root st = .ok l' ∧
      ∀ v, (Needs deps root v → (l ++ l').count v = 1) ∧
        (¬ Needs deps root v → (l ++ l').count v = 0) := by
  obtain ⟨hord, ⟨n, hn, hlim'⟩, hnd, hi⟩ := h
  obtain ⟨st, l, g1, h1, h2, h3, h4, _, h6, h7, h8, h9, h10, h11, h12⟩ :=
    sortExpressions_fresh env isIndep root deps n hord hn hlim' hnd hi
  obtain ⟨st', h'⟩ := sortExpressions_again env env' isIndep root deps n (by omega) st g1
    hn.acyclic h4 h6 h7 h8 h9 h10 h11 h12
  refine ⟨st, l, [], h1, by simp [execOrder, h', Except.map], fun v => ⟨fun hv => ?_, fun hv => ?_⟩⟩
  · rw [List.append_nil]
    exact List.count_eq_one_of_mem h2 ((h3 v).2 hv)
  · rw [List.append_nil]
    exact List.count_eq_zero_of_not_mem fun hm => hv ((h3 v).1 hm)

/-! ## C58: chains longer than the recursion limit -/

/-- **C58, refuted.** Setup of an acyclic group with a dependency chain at least as long as Python's
recursion limit fails with `RecursionError`, whatever the limit is. -/
theorem c58_long_chain_fails {env : SetupEnv} {isIndep : Ref → Bool} {root : Ref} {deps : Graph}
    (hord : ∀ u, Needs deps root u → OrderOk env.oi deps ((deps root).filter isIndep).length u)
    (univ : List Ref) (huniv : ∀ v, Reach deps root v → v ∈ univ) (hac : AcyclicFrom deps root)
    (hnd : ∀ u, Reach deps root u → (deps u).Nodup)
    (hi : ∀ i, Needs deps root i → isIndep i = true → deps i = [])
    (chain : List Ref) (hchain : List.IsChain (Edge deps) (root :: chain))
    (hlong : env.limit ≤ chain.length) :
    execOrder env isIndep root (GState.fresh deps) = .error .recursionError := by
  unfold execOrder
  rw [sortExpressions_long env isIndep root deps univ.length hord
    (chainsLt_of_acyclic univ huniv hac) (fun h => absurd (h chain hchain) (by omega)) hnd hi]
  rfl

/-- The group described by `x1 = f(x0)`, `x2 = f(x1)`, …: `m` applications, the last registered. -/
def lineDeps (m : Nat) : Nat → List Nat := fun (u : Nat) => if u < m then [u + 1] else []

theorem line_needs {m a b : Nat} (h : Needs (lineDeps m) a b) : a < b ∧ b ≤ m := by
  have h1 : ∀ a b : Nat, Edge (lineDeps m) a b → a < b ∧ b ≤ m := by
    intro a b h
    unfold Edge lineDeps at h
    split at h <;> simp at h
    omega
  induction h with
  | single h => exact h1 _ _ h
  | tail _ h ih => have := h1 _ _ h; omega

/-- A set of the number zero has one order. -/
theorem ascendingBelow_one (o : SetOrder Nat) : AscendingBelow o 1 := by
  intro xs h
  have h0 : ∀ i ∈ o.list xs, i = 0 := fun i hi => Nat.lt_one_iff.1 (h i ((o.mem_iff _ _).1 hi))
  have hnd := o.nodup xs
  match o.list xs, h0, hnd with
  | [], _, _ => simp
  | [_], _, _ => simp
  | a :: b :: l, h0, hnd =>
    have : a ≠ b := by simp only [List.nodup_cons, List.mem_cons, not_or] at hnd; exact hnd.1.1
    exact absurd ((h0 a (by simp)).trans (h0 b (by simp)).symm) this

/-- For every recursion limit, and whatever the order of sets, there is such a group: `x = f(x)` in a Python loop. -/
theorem c58_witness (env : SetupEnv) :
    execOrder env (fun _ => false) 0 (GState.fresh (lineDeps env.limit)) =
      .error .recursionError := by
  have hasc := ascendingBelow_one env.oi
  have hchain : ∀ d i : Nat, i + d = env.limit →
      List.IsChain (Edge (lineDeps env.limit)) (i :: (List.range' (i + 1) d)) := by
    intro d
    induction d with
    | zero => intro i _; simp
    | succ d ih =>
      intro i hi
      rw [List.range'_succ, List.isChain_cons_cons]
      refine ⟨?_, ih (i + 1) (by omega)⟩
      unfold Edge lineDeps
      rw [if_pos (by omega)]
      simp
  refine c58_long_chain_fails (fun u hu => .of_below hasc ?_) (List.range (env.limit + 1)) ?_ ?_ ?_ (by simp)
    (List.range' 1 env.limit) (by simpa using hchain env.limit 0 (by omega)) (by simp)
  · unfold lineDeps
    split <;> simp
  · intro v hv
    rcases Relation.reflTransGen_iff_eq_or_transGen.1 hv with h | h
    · simp [h]
    · have := line_needs h
      simp; omega
  · intro v _ h
    exact absurd (line_needs h).1 (lt_irrefl _)
  · intro u _
    unfold lineDeps
    split <;> simp

end OM
