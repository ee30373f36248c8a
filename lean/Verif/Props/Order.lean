import Verif.Lemmas.Pipeline
import Verif.Lemmas.PySet
import Verif.Lemmas.Finite

/-!
# Execution order (C01, C02, C03, C04, C05, C06, C11)

The components of a group are added by looping over `reversed(self.sorted_expressions)`
(group.py 80), so the execution order is the reverse of the list computed by `sortExpressions`.
-/

namespace OM
open Spec

/-- The order in which the components of the group are added and executed (group.py 80). -/
def execOrder (env : SetupEnv) (isIndep : Ref → Bool) (root : Ref) (st : GState) :
    Except SetupError (List Ref) :=
  (sortExpressions env isIndep root st).map fun r => r.2.reverse

/-- Conditions under which a freshly described group is set up correctly:
* the described expressions have no circular definition, and dependency chains are shorter than
  Python's recursion limit (`chains`, `limit`);
* the order of sets of integers is good for the dependencies of every needed expression (`OrderOk`). For CPython it is
  - if the expression has at most two dependencies, however many independent variables the group has (`orderOk_two`);
  - if it has at most four, at most one of which another one needs as well (`orderOk_four`);
  - if the dependencies of the expression and the independent variables of the group are at most eight (`orderOk_eight`);
* `add_dependency_node` keeps dependency lists free of duplicates, and independent variables have no
  dependencies (`create_indep_var`, group.py 213-252). -/
structure WellFormed (env : SetupEnv) (isIndep : Ref → Bool) (root : Ref) (deps : Graph) : Prop where
  order : ∀ u, Needs deps root u → OrderOk env.oi deps ((deps root).filter isIndep).length u
  chains : ∃ n, ChainsLt deps root n ∧ n < env.limit
  nodup : ∀ u, Reach deps root u → (deps u).Nodup
  indeps : ∀ i, Needs deps root i → isIndep i = true → deps i = []

/-- CPython and an expression with at most four dependencies, at most one of which another one needs as well: any number
of independent variables is possible. -/
theorem orderOk_four {deps : Nat → List Nat} {u : Nat} (n : Nat) (hlen : (deps u).length ≤ 4)
    (hone : ∀ c ∈ deps u, ∀ c' ∈ deps u, ∀ w ∈ deps u, ∀ w' ∈ deps u, Needs deps c w → Needs deps c' w' → w = w') :
    OrderOk pyOrder deps n u := by
  refine ⟨1, fun l hl h => ?_, fun m _ => pyOrder_sets (by have := pySize_room m; omega)⟩
  match l, hl, h with
  | [], _, _ => simp
  | [_], _, _ => simp
  | a :: b :: l, hl, h =>
    obtain ⟨h1, c, hc, h2⟩ := h a (by simp)
    obtain ⟨h1', c', hc', h2'⟩ := h b (by simp)
    have := hone c hc c' hc' a h1 b h1' h2 h2'
    simp [this] at hl

/-- CPython and an expression with at most two dependencies: any number of independent variables is possible. -/
theorem orderOk_two {deps : Nat → List Nat} {u : Nat} (n : Nat) (hlen : (deps u).length ≤ 2)
    (hac : ∀ c ∈ deps u, ¬ Needs deps c c) : OrderOk pyOrder deps n u := by
  refine orderOk_four n (by omega) fun c hc c' hc' w hw w' hw' h h' => ?_
  by_contra hne
  have key : ∀ x ∈ deps u, x = w ∨ x = w' := by
    match hd : deps u, hlen with
    | [], _ => simp
    | [a], _ =>
      rw [hd] at hw hw'
      simp only [List.mem_singleton] at hw hw'
      exact absurd (hw.trans hw'.symm) hne
    | [a, b], _ =>
      rw [hd] at hw hw'
      simp only [List.mem_cons, List.not_mem_nil, or_false] at hw hw' ⊢
      omega
  rcases key c hc with rfl | rfl
  · exact hac _ hc h
  · rcases key c' hc' with rfl | rfl
    · exact hac _ hc (h.trans h')
    · exact hac _ hc' h'

/-- CPython and at most eight dependencies and independent variables. -/
theorem orderOk_eight {deps : Nat → List Nat} {n u : Nat} (hlen : (deps u).length + n ≤ 8) : OrderOk pyOrder deps n u :=
  .of_below pyOrder_ascending hlen

theorem execOrder_ok {env : SetupEnv} {isIndep : Ref → Bool} {root : Ref} {deps : Graph}
    (h : WellFormed env isIndep root deps) :
    ∃ l g1, execOrder env isIndep root (GState.fresh deps) = .ok l ∧ l.Nodup ∧
      (∀ v, v ∈ l ↔ Needs deps root v) ∧ WithIndeps deps isIndep root g1 ∧
      (∀ u v, u ∈ l → Needs g1 u v → Before l v u) := by
  obtain ⟨hord, ⟨n, hn, hlim⟩, hnd, hi⟩ := h
  obtain ⟨st, l, g1, h1, h2, h3, h4, h5, _⟩ :=
    sortExpressions_fresh env isIndep root deps n hord hn hlim hnd hi
  refine ⟨l.reverse, g1, by simp [execOrder, h1, Except.map], by simpa using h2, by simpa using h3,
    h4, ?_⟩
  intro u v hu hv
  exact (h5 u v (by simpa using hu) hv).reverse

/-- **C01.** Setup succeeds and every expression is executed after everything it depends on,
directly or indirectly. -/
theorem c01_execution_order {env : SetupEnv} {isIndep : Ref → Bool} {root : Ref} {deps : Graph}
    (h : WellFormed env isIndep root deps) :
    ∃ l, execOrder env isIndep root (GState.fresh deps) = .ok l ∧
      ∀ u v, Needs deps root u → Needs deps u v → Before l v u := by
  obtain ⟨l, g1, h1, _, h3, h4, h5⟩ := execOrder_ok h
  refine ⟨l, h1, fun u v hu hv => h5 u v ((h3 u).2 hu) ?_⟩
  exact needs_mono (fun a b hab => Relation.TransGen.single ((h4 a b).2 (Or.inl hab))) hv

/-- **C02.** Every expression that the registered outputs and subsystems depend on is executed
exactly once, and nothing else is. -/
theorem c02_exactly_once {env : SetupEnv} {isIndep : Ref → Bool} {root : Ref} {deps : Graph}
    (h : WellFormed env isIndep root deps) :
    ∃ l, execOrder env isIndep root (GState.fresh deps) = .ok l ∧
      ∀ v, (Needs deps root v → l.count v = 1) ∧ (¬ Needs deps root v → l.count v = 0) := by
  obtain ⟨l, g1, h1, h2, h3, _⟩ := execOrder_ok h
  refine ⟨l, h1, fun v => ⟨fun hv => ?_, fun hv => ?_⟩⟩
  · exact List.count_eq_one_of_mem h2 ((h3 v).2 hv)
  · exact List.count_eq_zero_of_not_mem fun hm => hv ((h3 v).1 hm)

/-- **C06.** Independent variables are executed before every expression that is not one. -/
theorem c06_indeps_first {env : SetupEnv} {isIndep : Ref → Bool} {root : Ref} {deps : Graph}
    (h : WellFormed env isIndep root deps) :
    ∃ l, execOrder env isIndep root (GState.fresh deps) = .ok l ∧
      ∀ i ∈ deps root, isIndep i = true → ∀ u ∈ l, isIndep u = false → Before l i u := by
  obtain ⟨l, g1, h1, _, h3, h4, h5⟩ := execOrder_ok h
  refine ⟨l, h1, fun i hi hii u hu hui => h5 u i hu ?_⟩
  exact Relation.TransGen.single ((h4 u i).2 (Or.inr ⟨(h3 u).1 hu, hui, hii, hi⟩))

/-- The conditions `chains`/`limit` hold for every finite group without circular definitions that
has fewer expressions than Python's recursion limit. -/
theorem wellFormed_of_order {env : SetupEnv} {isIndep : Ref → Bool} {root : Ref} {deps : Graph}
    (univ : List Ref) (huniv : ∀ v, Reach deps root v → v ∈ univ)
    (hlim : univ.length < env.limit) (hac : AcyclicFrom deps root)
    (hord : ∀ u, Needs deps root u → OrderOk env.oi deps ((deps root).filter isIndep).length u)
    (hnd : ∀ u, Reach deps root u → (deps u).Nodup)
    (hi : ∀ i, Needs deps root i → isIndep i = true → deps i = []) :
    WellFormed env isIndep root deps :=
  ⟨hord, ⟨_, chainsLt_of_acyclic univ huniv hac, by omega⟩, hnd, hi⟩

theorem wellFormed_of_acyclic {env : SetupEnv} {isIndep : Ref → Bool} {root : Ref} {deps : Graph}
    (univ : List Ref) (huniv : ∀ v, Reach deps root v → v ∈ univ)
    (hlim : univ.length < env.limit) (hac : AcyclicFrom deps root) (k : Nat)
    (hk : AscendingBelow env.oi k) (hlen : ∀ u, Needs deps root u →
      (deps u).length + ((deps root).filter isIndep).length ≤ k)
    (hnd : ∀ u, Reach deps root u → (deps u).Nodup)
    (hi : ∀ i, Needs deps root i → isIndep i = true → deps i = []) :
    WellFormed env isIndep root deps :=
  wellFormed_of_order univ huniv hlim hac (fun u hu => .of_below hk (hlen u hu)) hnd hi

/-! ## Non-trivial groups satisfying the conditions -/

/-- A run of CPython: sets of small integers as in `pyOrder`, objects in order of first occurrence. -/
def demoEnv : SetupEnv :=
  ⟨⟨List.dedup, fun _ => List.nodup_dedup _, fun _ _ => List.mem_dedup⟩, pyOrder, 1000, true⟩

/-- `0` is the root, `5` an independent variable, `4` an input; `3 = f(4, 5)`, `2 = g(3, 4)`,
`1 = h(2, 3)`; `1` and `3` are registered outputs. -/
def demoDeps : Graph := ofAdj [[5, 1, 3], [2, 3], [3, 4], [4, 5], [], []]

theorem demo_wellFormed : WellFormed demoEnv (· == 5) 0 demoDeps := by
  have hle : ∀ v, Reach demoDeps 0 v → v < 6 := fun v hv =>
    ofAdj_reach (adj := [[5, 1, 3], [2, 3], [3, 4], [4, 5], [], []]) (by decide) (by decide) hv
  refine wellFormed_of_acyclic (List.range 6) (fun v hv => by simpa using hle v hv) (by decide)
    (ofAdj_acyclic (fun u => [6, 5, 4, 3, 1, 1].getD u 0) (by decide) 0) 8 pyOrder_ascending
    ?_ ?_ ?_
  · intro u hu
    have := hle u hu.to_reflTransGen
    interval_cases u <;> decide
  · intro u hu
    have := hle u hu
    interval_cases u <;> decide
  · intro i _ hi'
    simp only [beq_iff_eq] at hi'
    subst hi'
    rfl

example : execOrder demoEnv (· == 5) 0 (GState.fresh demoDeps) = .ok [5, 4, 3, 2, 1] := by decide

/-- `n` independent variables `2, …, n + 1`, all with the same dependent `1`: no bound on their number. -/
def starDeps (n : Nat) : Graph := fun u => if u = 0 then 1 :: List.range' 2 n else if u = 1 then [2] else []

theorem star_wellFormed (n : Nat) (hn : 0 < n) (hlim : n + 2 < 1000) :
    WellFormed demoEnv (fun u => 2 ≤ u) 0 (starDeps n) := by
  have hedge : ∀ u v : Nat, v ∈ starDeps n u → u < v ∧ v < n + 2 := by
    intro u v h
    unfold starDeps at h
    split at h
    · rcases List.mem_cons.1 h with rfl | h
      · omega
      · have := List.mem_range'_1.1 h; omega
    · split at h <;> simp at h
      omega
  have hneeds : ∀ u v : Nat, Needs (starDeps n) u v → u < v ∧ v < n + 2 := by
    intro u v h
    induction h with
    | single h => exact hedge _ _ h
    | tail _ h ih => have := hedge _ _ h; omega
  refine wellFormed_of_order (List.range (n + 2)) (fun v hv => ?_) (by rw [List.length_range]; exact hlim)
    (fun v _ h => absurd (hneeds v v h).1 (lt_irrefl v)) (fun u hu => ?_) (fun u _ => ?_) (fun i _ hi => ?_)
  · rcases Relation.reflTransGen_iff_eq_or_transGen.1 hv with h | h
    · simp [h]
    · simpa using (hneeds 0 v h).2
  · have h0 := (hneeds 0 u hu).1
    refine orderOk_two _ ?_ fun c _ h => absurd (hneeds c c h).1 (lt_irrefl c)
    unfold starDeps
    rw [if_neg (by omega)]
    split <;> simp
  · unfold starDeps
    split
    · exact List.nodup_cons.2 ⟨fun h => by have := List.mem_range'_1.1 h; omega, List.nodup_range'⟩
    · split <;> simp
  · have hi' : 2 ≤ i := by simpa using hi
    unfold starDeps
    rw [if_neg (by omega), if_neg (by omega)]

end OM
