import Verif.Props.Order

/-!
# Sorting branches by cost (C83)

`compute_dag_cost` is to give the number of expressions met below an expression, `sort_dependency_branches` to put
expensive branches first ("critical path"), or last if `reverse_branch_sorting` is set.
-/

namespace OM
open Spec

/-- Below `r` every expression is used once, in one place. -/
structure Spec.Tree (deps : Nat → List Nat) (r : Nat) : Prop where
  acyclic : AcyclicFrom deps r
  nodup : ∀ u, Reach deps r u → (deps u).Nodup
  once : ∀ u u' v, Reach deps r u → Reach deps r u' → v ∈ deps u → v ∈ deps u' → u = u'

/-- `k` is the number of expressions needed for `u`, itself included. -/
def Spec.Below (deps : Nat → List Nat) (u k : Nat) : Prop :=
  ∃ l : List Nat, l.Nodup ∧ (∀ x, x ∈ l ↔ Reach deps u x) ∧ l.length = k

/-! ## What setup does, step by step -/

theorem sortExpressions_inv {env : SetupEnv} {isIndep : Ref → Bool} {root : Ref} {st st' : GState} {l : List Ref}
    (h : sortExpressions env isIndep root st = .ok (st', l)) :
    ∃ g1 g2, registerNodes st.deps env.limit root st.nodes = some st'.nodes ∧
      g1 = addIndeps env.ov isIndep root st'.nodes st.deps ∧ g2 = removeIndirectAll env.oi st'.nodes g1 ∧
      addFwdEdges env.ov g2 env.limit root st.dependents = some st'.dependents ∧
      dagCost g2 env.limit root st.cost = some st'.cost ∧ st'.deps = sortAll st'.cost env.reverse st'.nodes g2 ∧
      l = (topoIter st'.deps st'.dependents (topoBound st'.deps (root :: st'.nodes)) ⟨[root], st.visits, []⟩).sorted := by
  unfold sortExpressions at h
  split at h
  · cases h
  next nodes hn =>
  simp only at h
  split at h
  · cases h
  next D hD =>
  split at h
  · cases h
  split at h
  · cases h
  next cost hc =>
  obtain ⟨h1, h2⟩ := Prod.mk.inj (Except.ok.inj h)
  subst h1 h2
  exact ⟨_, _, hn, rfl, rfl, hD, hc, rfl, rfl⟩

/-! ## Order of the dependencies -/

theorem sortBranches_sorted (cost : Ref → Nat) (rev : Bool) (l : List Ref) :
    (sortBranches cost rev l).Pairwise fun a b => if rev then cost b ≤ cost a else cost a ≤ cost b := by
  unfold sortBranches
  cases rev with
  | false =>
    simp only [Bool.false_eq_true, if_false]
    have : Std.Total fun a b : Ref => cost a ≤ cost b := ⟨fun a b => le_total _ _⟩
    have : IsTrans Ref fun a b : Ref => cost a ≤ cost b := ⟨fun a b c => le_trans⟩
    exact List.pairwise_insertionSort _ _
  | true =>
    simp only [if_true]
    have : Std.Total fun a b : Ref => cost b ≤ cost a := ⟨fun a b => le_total _ _⟩
    have : IsTrans Ref fun a b : Ref => cost b ≤ cost a := ⟨fun a b c h1 h2 => le_trans h2 h1⟩
    exact List.pairwise_insertionSort _ _

/-- Branches of equal cost stay in the order in which they were. -/
theorem sortBranches_stable (cost : Ref → Nat) (rev : Bool) (l : List Ref) (k : Nat) :
    (sortBranches cost rev l).filter (cost · = k) = l.filter (cost · = k) := by
  have hpw : ∀ R : Ref → Ref → Prop, (∀ a b, cost a = cost b → R a b) → (l.filter (cost · = k)).Pairwise R := by
    intro R hR
    refine List.pairwise_of_forall_mem_list fun a ha b hb => hR a b ?_
    have h1 := (List.mem_filter.1 ha).2
    have h2 := (List.mem_filter.1 hb).2
    simp only [decide_eq_true_eq] at h1 h2
    omega
  have hsub : (l.filter (cost · = k)).Sublist (sortBranches cost rev l) := by
    unfold sortBranches
    split
    · exact List.sublist_insertionSort (hpw _ fun a b h => h.ge) List.filter_sublist
    · exact List.sublist_insertionSort (hpw _ fun a b h => h.le) List.filter_sublist
  have h := hsub.filter (cost · = k)
  rw [List.filter_filter] at h
  simp only [Bool.and_self] at h
  exact (h.eq_of_length ((sortBranches_perm cost rev l).filter _).length_eq.symm).symm

theorem sortAll_stable (cost : Ref → Nat) (rev : Bool) (nodes : List Ref) (g : Graph) (u k : Nat) :
    (sortAll cost rev nodes g u).filter (cost · = k) = (g u).filter (cost · = k) := by
  unfold sortAll
  induction nodes generalizing g with
  | nil => rfl
  | cons a t ih =>
    simp only [List.foldl_cons]
    rw [ih]
    by_cases h : u = a
    · subst h
      rw [Function.update_self, sortBranches_stable]
    · rw [Function.update_of_ne h]

theorem sortAll_sorted (cost : Ref → Nat) (rev : Bool) (nodes : List Ref) (g : Graph) {u : Ref}
    (hu : u ∈ nodes ∨ (g u).Pairwise fun a b => if rev then cost b ≤ cost a else cost a ≤ cost b) :
    (sortAll cost rev nodes g u).Pairwise fun a b => if rev then cost b ≤ cost a else cost a ≤ cost b := by
  unfold sortAll
  induction nodes generalizing g with
  | nil => simpa using hu
  | cons a t ih =>
    simp only [List.foldl_cons]
    apply ih
    by_cases h : u = a
    · subst h
      right
      rw [Function.update_self]
      exact sortBranches_sorted _ _ _
    · rw [Function.update_of_ne h]
      rcases hu with hu | hu
      · left
        exact (List.mem_cons.1 hu).resolve_left h
      · exact Or.inr hu

theorem sortAll_of_not_mem (cost : Ref → Nat) (rev : Bool) (nodes : List Ref) (g : Graph) {u : Ref} (hu : u ∉ nodes) :
    sortAll cost rev nodes g u = g u := by
  unfold sortAll
  induction nodes generalizing g with
  | nil => rfl
  | cons a t ih =>
    rw [List.mem_cons, not_or] at hu
    simp only [List.foldl_cons]
    rw [ih _ hu.2, Function.update_of_ne hu.1]

theorem removeIndirectAll_of_not_mem (o : SetOrder Nat) (nodes : List Ref) (g : Graph) {u : Ref} (hu : u ∉ nodes) :
    removeIndirectAll o nodes g u = g u := by
  unfold removeIndirectAll
  induction nodes generalizing g with
  | nil => rfl
  | cons a t ih =>
    rw [List.mem_cons, not_or] at hu
    simp only [List.foldl_cons]
    rw [ih _ hu.2, removeIndirect, Function.update_of_ne hu.1]

/-- **C83, what holds of the order.** After every successful setup the dependencies of every expression are sorted by the
costs that were computed: cheap branches first, or last if `reverse_branch_sorting` is set. -/
theorem c83_sorted_partial {env : SetupEnv} {isIndep : Ref → Bool} {root : Ref} {st st' : GState} {l : List Ref}
    (h : sortExpressions env isIndep root st = .ok (st', l)) {u : Ref} (hu : u ∈ st'.nodes) :
    (st'.deps u).Pairwise fun a b => if env.reverse then st'.cost b ≤ st'.cost a else st'.cost a ≤ st'.cost b := by
  obtain ⟨g1, g2, -, -, -, -, -, h6, -⟩ := sortExpressions_inv h
  rw [h6]
  exact sortAll_sorted _ _ _ _ (Or.inl hu)

/-- **C83 is violated.** The order is the opposite of the documented one (expensive branches first, or last if
`reverse_branch_sorting` is set), except for expressions whose dependencies all have the same cost. -/
theorem c83_order_violated {env : SetupEnv} {isIndep : Ref → Bool} {root : Ref} {st st' : GState} {l : List Ref}
    (h : sortExpressions env isIndep root st = .ok (st', l)) {u : Ref} (hu : u ∈ st'.nodes) :
    ((st'.deps u).Pairwise fun a b => if env.reverse then st'.cost a ≤ st'.cost b else st'.cost b ≤ st'.cost a) ↔
      ∀ a ∈ st'.deps u, ∀ b ∈ st'.deps u, st'.cost a = st'.cost b := by
  have hs := c83_sorted_partial h hu
  constructor
  · intro hd
    have : (st'.deps u).Pairwise fun a b => st'.cost a = st'.cost b := by
      refine (hs.and hd).imp fun {a b} h => ?_
      cases hr : env.reverse <;> simp only [hr, Bool.false_eq_true, if_false, if_true] at h <;> omega
    have hsym : Std.Symm fun a b : Ref => st'.cost a = st'.cost b := ⟨fun _ _ h => h.symm⟩
    exact fun a ha b hb =>
      List.Pairwise.forall_of_forall (R := fun a b => st'.cost a = st'.cost b) (fun _ _ => rfl) this ha hb
  · intro he
    refine List.pairwise_of_forall_mem_list fun a ha b hb => ?_
    rw [he a ha b hb]
    simp

/-- **C83 is violated.** The registered outputs, which are the dependencies of the root, are not sorted at all: the order
is the one in which the set of dependencies was iterated. -/
theorem c83_outputs_unsorted {env : SetupEnv} {isIndep : Ref → Bool} {root : Ref} {deps : Graph}
    (hwf : WellFormed env isIndep root deps) :
    ∃ st l, sortExpressions env isIndep root (GState.fresh deps) = .ok (st, l) ∧ st.deps root = deps root := by
  obtain ⟨hord, ⟨n, hn, hlim⟩, hnd, hi⟩ := hwf
  obtain ⟨st, l, g1, h1, h2, h3, -, -, -, -, -, -, hnodes, -⟩ :=
    sortExpressions_fresh env isIndep root deps n hord hn hlim hnd hi
  refine ⟨st, l, h1, ?_⟩
  obtain ⟨g1, g2, -, h2, h3, -, -, h6, -⟩ := sortExpressions_inv h1
  have hroot : root ∉ st.nodes := fun h => hn.acyclic root .refl ((hnodes root).1 h)
  rw [h6, sortAll_of_not_mem _ _ _ _ hroot, h3, removeIndirectAll_of_not_mem _ _ _ hroot, h2,
    (addIndeps_spec env.ov isIndep root st.nodes _ hroot).2.2 root hroot]
  rfl

/-! ## Costs -/

theorem Spec.Tree.sub {g : Graph} {r u : Ref} (t : Tree g r) (h : Reach g r u) : Tree g u :=
  ⟨fun v hv => t.acyclic v (h.trans hv), fun v hv => t.nodup v (h.trans hv),
   fun a b v ha hb => t.once a b v (h.trans ha) (h.trans hb)⟩

theorem Spec.Tree.comparable {g : Graph} {r a b x : Ref} (t : Tree g r) (ha : Reach g r a) (hb : Reach g r b)
    (hax : Reach g a x) (hbx : Reach g b x) : Reach g a b ∨ Reach g b a := by
  induction hax with
  | refl => exact Or.inr hbx
  | @tail y x hay hyx ih =>
    rcases Relation.ReflTransGen.cases_tail hbx with h | ⟨y', hby', hy'x⟩
    · subst h
      exact Or.inl (hay.tail hyx)
    · obtain rfl := t.once y y' x (ha.trans hay) (hb.trans hby') hyx hy'x
      exact ih hby'

theorem Spec.Tree.disjoint {g : Graph} {u d e x : Ref} (t : Tree g u) (hd : d ∈ g u) (he : e ∈ g u) (hne : d ≠ e)
    (hdx : Reach g d x) : ¬ Reach g e x := by
  have key : ∀ {d e : Ref}, d ∈ g u → e ∈ g u → d ≠ e → ¬ Reach g d e := by
    intro d e hd he hne h
    rcases Relation.ReflTransGen.cases_tail h with h | ⟨z, hdz, hze⟩
    · exact hne h.symm
    · obtain rfl := t.once u z e .refl ((Relation.ReflTransGen.single hd).trans hdz) he hze
      exact t.acyclic _ .refl (Relation.TransGen.head' hd hdz)
  intro hex
  rcases t.comparable (.single hd) (.single he) hdx hex with h | h
  · exact key hd he hne h
  · exact key he hd (Ne.symm hne) h

theorem Spec.Tree.not_self {g : Graph} {u d : Ref} (t : Tree g u) (hd : d ∈ g u) : ¬ Reach g d u := fun h =>
  t.acyclic _ .refl (Relation.TransGen.head' hd h)

theorem dagCost_tree {g : Graph} {n : Nat} {u : Ref} {c c' : Ref → Nat} (t : Tree g u) (h : dagCost g n u c = some c')
    (h1 : ∀ x, Reach g u x → c x = 1) :
    (∀ x, ¬ Reach g u x → c' x = c x) ∧ ∀ x, Reach g u x → Below g x (c' x) := by
  induction n generalizing u c c' with
  | zero => cases h
  | succ n ih =>
    simp only [dagCost] at h
    have loop : ∀ (ds ps L : List Ref) (e : Ref → Nat), ps ++ ds = g u →
        ds.foldlM (fun c v => (dagCost g n v c).map fun c' => Function.update c' u (c u + c' v)) e = some c' →
        L.Nodup → (∀ y, y ∈ L ↔ y = u ∨ ∃ d ∈ ps, Reach g d y) → L.length = e u →
        (∀ x, ¬ Reach g u x → e x = c x) → (∀ d ∈ ds, ∀ x, Reach g d x → e x = 1) →
        (∀ d ∈ ps, ∀ x, Reach g d x → Below g x (e x)) →
        (∀ x, ¬ Reach g u x → c' x = c x) ∧ ∀ x, Reach g u x → Below g x (c' x) := by
      intro ds
      induction ds with
      | nil =>
        intro ps L e hps hc' hL hmem hlen hoff _ hps'
        rw [List.append_nil] at hps
        obtain rfl := Option.some.inj hc'
        refine ⟨hoff, fun x hx => ?_⟩
        rcases Relation.ReflTransGen.cases_head hx with h | ⟨d, hd, hdx⟩
        · subst h
          refine ⟨L, hL, fun y => ?_, hlen⟩
          rw [hmem]
          constructor
          · rintro (h | ⟨d, hd, hdy⟩)
            · subst h; exact .refl
            · exact .head (show d ∈ g u from hps ▸ hd) hdy
          · intro hy
            rcases Relation.ReflTransGen.cases_head hy with h | ⟨d, hd, hdy⟩
            · exact Or.inl h.symm
            · exact Or.inr ⟨d, hps ▸ hd, hdy⟩
        · exact hps' d (hps ▸ hd) x hdx
      | cons d ds ihds =>
        intro ps L e hps hc' hL hmem hlen hoff hds hps'
        have hdu : d ∈ g u := hps ▸ by simp
        have hdnd : (ps ++ d :: ds).Nodup := hps ▸ t.nodup u .refl
        have hpd : ∀ p ∈ ps, p ≠ d := fun p hp h => by
          subst h
          exact (List.nodup_append.1 hdnd).2.2 p hp p (by simp) rfl
        have hdd : ∀ p ∈ ds, p ≠ d := fun p hp h => by
          subst h
          exact (List.nodup_cons.1 (List.nodup_append.1 hdnd).2.1).1 hp
        rw [List.foldlM_cons] at hc'
        cases hd : dagCost g n d e with
        | none => rw [hd] at hc'; cases hc'
        | some e' =>
          rw [hd] at hc'
          obtain ⟨k1, k2⟩ := ih (t.sub (.single hdu)) hd (hds d (by simp))
          obtain ⟨M, hM, hMmem, hMlen⟩ := k2 d .refl
          refine ihds (ps ++ [d]) (L ++ M) (Function.update e' u (e u + e' d)) (by simpa using hps) hc' ?_ ?_ ?_ ?_ ?_ ?_
          · refine List.nodup_append.2 ⟨hL, hM, ?_⟩
            rintro a ha b hb rfl
            rw [hMmem] at hb
            rcases (hmem a).1 ha with h | ⟨p, hp, hpa⟩
            · subst h
              exact t.not_self hdu hb
            · exact t.disjoint (hps ▸ by simp [hp]) hdu (hpd p hp) hpa hb
          · intro y
            rw [List.mem_append, hmem, hMmem]
            simp only [List.mem_append, List.mem_singleton, or_and_right, exists_or, exists_eq_left, or_assoc]
          · rw [Function.update_self, List.length_append, hlen, hMlen]
          · intro x hx
            have hxu : x ≠ u := fun h => hx (h ▸ .refl)
            rw [Function.update_of_ne hxu, k1 x fun h => hx (.head hdu h), hoff x hx]
          · intro p hp x hx
            have hpu : p ∈ g u := hps ▸ by simp [hp]
            have hxu : x ≠ u := fun h => t.not_self hpu (h ▸ hx)
            rw [Function.update_of_ne hxu, k1 x (t.disjoint hpu hdu (hdd p hp) hx)]
            exact hds p (by simp [hp]) x hx
          · intro p hp x hx
            rcases List.mem_append.1 hp with hp | hp
            · have hpu : p ∈ g u := hps ▸ by simp [hp]
              have hxu : x ≠ u := fun h => t.not_self hpu (h ▸ hx)
              rw [Function.update_of_ne hxu, k1 x (t.disjoint hpu hdu (hpd p hp) hx)]
              exact hps' p hp x hx
            · obtain rfl := List.mem_singleton.1 hp
              have hxu : x ≠ u := fun h => t.not_self hdu (h ▸ hx)
              rw [Function.update_of_ne hxu]
              exact k2 x hx
    exact loop (g u) [] [u] c (by simp) h (by simp) (by simp) (by simp [h1 u .refl]) (fun _ _ => rfl)
      (fun d hd x hx => h1 x (.head hd hx)) (by simp)

theorem Spec.Tree.congr {g g' : Graph} {r : Ref} (h : ∀ u, (g u).Perm (g' u)) (t : Tree g r) : Tree g' r := by
  have he : ∀ a b, Edge g' a b ↔ Edge g a b := fun a b => (h a).symm.mem_iff
  have hn := needs_congr he
  have hr := reach_iff_of_needs_iff hn
  refine ⟨fun v hv hvv => t.acyclic v ((hr r v).1 hv) ((hn v v).1 hvv), fun u hu => ?_, fun a b v ha hb h1 h2 => ?_⟩
  · exact (h u).nodup_iff.1 (t.nodup u ((hr r u).1 hu))
  · exact t.once a b v ((hr r a).1 ha) ((hr r b).1 hb) ((he a v).1 h1) ((he b v).1 h2)

/-- **C83, what holds of the costs.** If, in the graph that setup leaves, every expression is used once, then its cost is
the number of expressions needed for it. -/
theorem c83_cost_partial {env : SetupEnv} {isIndep : Ref → Bool} {root : Ref} {st st' : GState} {l : List Ref}
    (h : sortExpressions env isIndep root st = .ok (st', l)) (t : Tree st'.deps root)
    (hfresh : ∀ u, Reach st'.deps root u → st.cost u = 1) {u : Ref} (hu : Reach st'.deps root u) :
    Below st'.deps u (st'.cost u) := by
  obtain ⟨g1, g2, -, -, -, -, h5, h6, -⟩ := sortExpressions_inv h
  have hp : ∀ u, (st'.deps u).Perm (g2 u) := fun u => by rw [h6]; exact sortAll_perm _ _ _ _ _
  have he : ∀ a b, Edge st'.deps a b ↔ Edge g2 a b := fun a b => (hp a).mem_iff
  have hr := reach_iff_of_needs_iff (needs_congr he)
  obtain ⟨L, h1, h2, h3⟩ := (dagCost_tree (t.congr hp) h5 fun x hx => hfresh x ((hr root x).2 hx)).2 u ((hr root u).1 hu)
  exact ⟨L, h1, fun x => (h2 x).trans (hr u x).symm, h3⟩

/-! ## Order of execution -/

theorem topoIter_stuck {g D : Graph} {s : TopoState} (h : s.stack = []) (n : Nat) : topoIter g D n s = s := by
  cases n with
  | zero => rfl
  | succ n =>
    have : topoStep g D s = none := by unfold topoStep; rw [h]
    simp only [topoIter, this]

theorem topoIter_add (g D : Graph) (a b : Nat) (s : TopoState) :
    topoIter g D (a + b) s = topoIter g D b (topoIter g D a s) := by
  induction a generalizing s with
  | zero => simp [topoIter]
  | succ a ih =>
    rw [Nat.succ_add]
    cases h : topoStep g D s with
    | none =>
      have hs : s.stack = [] := by
        unfold topoStep at h
        cases hst : s.stack with
        | nil => rfl
        | cons v rest =>
          simp only [hst] at h
          split at h <;> simp at h
      rw [topoIter_stuck hs, topoIter_stuck hs, topoIter_stuck hs]
    | some s' =>
      simp only [topoIter, h]
      exact ih s'

theorem topoIter_eq {g D : Graph} {a b : Nat} {s : TopoState} (ha : (topoIter g D a s).stack = [])
    (hb : (topoIter g D b s).stack = []) : topoIter g D a s = topoIter g D b s := by
  have h1 := topoIter_add g D a b s
  have h2 := topoIter_add g D b a s
  rw [topoIter_stuck ha] at h1
  rw [topoIter_stuck hb] at h2
  rw [← h1, ← h2, Nat.add_comm]

/-- The expressions below `u` from root to leaf, the last dependency first. -/
def preorder (g : Graph) : Nat → Ref → List Ref
  | 0, _ => []
  | n + 1, u => u :: (g u).reverse.flatMap (preorder g n)

theorem mem_preorder {g : Graph} {n : Nat} {u x : Ref} (hc : ChainsLt g u n) : x ∈ preorder g n u ↔ Reach g u x := by
  induction n generalizing u with
  | zero => exact absurd hc (not_chainsLt_zero g u)
  | succ n ih =>
    rw [preorder, List.mem_cons, List.mem_flatMap]
    constructor
    · rintro (h | ⟨d, hd, hx⟩)
      · subst h; exact .refl
      · have hd' : d ∈ g u := by simpa using hd
        exact .head hd' ((ih (chainsLt_succ.1 hc d hd')).1 hx)
    · intro h
      rcases Relation.ReflTransGen.cases_head h with h | ⟨d, hd, hdx⟩
      · exact Or.inl h.symm
      · exact Or.inr ⟨d, by simpa using (show d ∈ g u from hd), (ih (chainsLt_succ.1 hc d hd)).2 hdx⟩

theorem topo_tree_list {g D : Graph} {n : Nat} {u : Ref} (t : Tree g u)
    (ih : ∀ d ∈ g u, ∀ rest vis sorted, (∀ x, Reach g d x → vis x = 0) →
      ∃ k vis', topoIter g D k ⟨d :: rest, vis, sorted⟩ = ⟨rest, vis', sorted ++ preorder g n d⟩ ∧
        ∀ x, ¬ Reach g d x → vis' x = vis x) (ds : List Ref) (hds : ∀ d ∈ ds, d ∈ g u) (hnd : ds.Nodup) (rest : List Ref)
    (vis : Ref → Nat) (sorted : List Ref) (h0 : ∀ d ∈ ds, ∀ x, Reach g d x → vis x = 0) :
    ∃ k vis', topoIter g D k ⟨ds ++ rest, vis, sorted⟩ = ⟨rest, vis', sorted ++ ds.flatMap (preorder g n)⟩ ∧
      ∀ x, ¬ (∃ d ∈ ds, Reach g d x) → vis' x = vis x := by
  induction ds generalizing vis sorted with
  | nil => exact ⟨0, vis, by simp [topoIter], fun _ _ => rfl⟩
  | cons d ds ihds =>
    obtain ⟨k, vis', h1, h2⟩ := ih d (hds d (by simp)) (ds ++ rest) vis sorted (h0 d (by simp))
    obtain ⟨hd, hnd'⟩ := List.nodup_cons.1 hnd
    obtain ⟨k', vis'', h3, h4⟩ := ihds (fun e he => hds e (by simp [he])) hnd' vis' (sorted ++ preorder g n d)
      (fun e he x hx => by
        rw [h2 x (t.disjoint (hds e (by simp [he])) (hds d (by simp)) (fun h => hd (h ▸ he)) hx)]
        exact h0 e (by simp [he]) x hx)
    refine ⟨k + k', vis'', ?_, fun x hx => ?_⟩
    · rw [topoIter_add, List.cons_append, h1, h3]
      simp
    · rw [h4 x fun ⟨e, he, hex⟩ => hx ⟨e, by simp [he], hex⟩, h2 x fun h => hx ⟨d, by simp, h⟩]

theorem topo_tree {g D : Graph} {n : Nat} {u : Ref} (hc : ChainsLt g u n) (t : Tree g u)
    (hD : ∀ x, Reach g u x → (D x).length = 1) (rest : List Ref) (vis : Ref → Nat) (sorted : List Ref)
    (h0 : ∀ x, Reach g u x → vis x = 0) :
    ∃ k vis', topoIter g D k ⟨u :: rest, vis, sorted⟩ = ⟨rest, vis', sorted ++ preorder g n u⟩ ∧
      ∀ x, ¬ Reach g u x → vis' x = vis x := by
  induction n generalizing u rest vis sorted with
  | zero => exact absurd hc (not_chainsLt_zero g u)
  | succ n ih =>
    have hstep : topoStep g D ⟨u :: rest, vis, sorted⟩ =
        some ⟨(g u).reverse ++ rest, Function.update vis u 1, sorted ++ [u]⟩ := by
      simp [topoStep, h0 u .refl, hD u .refl]
    obtain ⟨k, vis', h1, h2⟩ := topo_tree_list (D := D) (n := n) t
      (fun d hd rest vis sorted h0 => ih (chainsLt_succ.1 hc d hd) (t.sub (.single hd))
        (fun x hx => hD x (.head hd hx)) rest vis sorted h0)
      (g u).reverse (fun d hd => by simpa using hd) (by simpa using t.nodup u .refl) rest (Function.update vis u 1)
      (sorted ++ [u]) (fun d hd x hx => by
        have hd' : d ∈ g u := by simpa using hd
        have hxu : x ≠ u := fun h => t.not_self hd' (h ▸ hx)
        rw [Function.update_of_ne hxu]
        exact h0 x (.head hd' hx))
    refine ⟨k + 1, vis', ?_, fun x hx => ?_⟩
    · simp only [topoIter, hstep, h1, preorder]
      simp
    · have hxu : x ≠ u := fun h => hx (h ▸ .refl)
      rw [h2 x, Function.update_of_ne hxu]
      rintro ⟨d, hd, hdx⟩
      exact hx (.head (by simpa using hd : d ∈ g u) hdx)

theorem preorder_inside {g : Graph} {n : Nat} {r u : Ref} (hc : ChainsLt g r (n + 1)) (hu : Reach g r u) :
    ∃ m p s, ChainsLt g u (m + 1) ∧
      (g r).reverse.flatMap (preorder g n) = p ++ (g u).reverse.flatMap (preorder g m) ++ s := by
  induction hu with
  | refl => exact ⟨n, [], [], hc, by simp⟩
  | @tail u v _ huv ih =>
    obtain ⟨m, p, s, h1, h2⟩ := ih
    have hcv := chainsLt_succ.1 h1 v huv
    cases m with
    | zero => exact absurd hcv (not_chainsLt_zero g v)
    | succ m =>
      obtain ⟨a, b, hab⟩ := List.append_of_mem (show v ∈ g u from huv)
      refine ⟨m, p ++ b.reverse.flatMap (preorder g (m + 1)) ++ [v], a.reverse.flatMap (preorder g (m + 1)) ++ s, hcv, ?_⟩
      rw [h2, hab]
      simp [preorder]

theorem tree_run_order {env : SetupEnv} {isIndep : Ref → Bool} {root : Ref} {deps : Graph} {st : GState} {l : List Ref} {n : Nat}
    (h1 : sortExpressions env isIndep root (GState.fresh deps) = .ok (st, l)) (hc : ChainsLt st.deps root (n + 1))
    (hlim : n < env.limit) (hund : (root :: st.nodes).Nodup)
    (hreach : ∀ v ∈ root :: st.nodes, ∀ w ∈ st.deps v, w ∈ root :: st.nodes) (t : Tree st.deps root) {u d e : Ref}
    (hu : Reach st.deps root u) (hde : Before (st.deps u) d e) {x y : Ref} (hx : Reach st.deps d x)
    (hy : Reach st.deps e y) : Before l.reverse x y := by
  obtain ⟨g1', g2, -, -, -, hfwd, -, h6, hl⟩ := sortExpressions_inv h1
  have hp : ∀ u, (st.deps u).Perm (g2 u) := fun u => by rw [h6]; exact sortAll_perm _ _ _ _ _
  have he : ∀ a b, Edge st.deps a b ↔ Edge g2 a b := fun a b => (hp a).mem_iff
  have hr := reach_iff_of_needs_iff (needs_congr he)
  have hc2 : ChainsLt g2 root (n + 1) := hc.of_edge_imp fun a b h => (he a b).2 h
  obtain ⟨D, hD, hDm, hDn⟩ := addFwdEdges_spec env.ov (d := fun _ => []) (hc2.mono hlim)
  rw [show (GState.fresh deps).dependents = fun _ => [] from rfl, hD] at hfwd
  obtain rfl := Option.some.inj hfwd
  have hone : ∀ x, x ≠ root → Reach st.deps root x → (st.dependents x).length = 1 := by
    intro x hxr hx
    rcases Relation.ReflTransGen.cases_tail hx with h | ⟨z, hz, hzx⟩
    · exact absurd h hxr
    · have hz' : z ∈ st.dependents x := (hDm x z).2 (Or.inr ⟨(hr root z).1 hz, (he z x).1 hzx⟩)
      have : ∀ w ∈ st.dependents x, w = z := by
        intro w hw
        rcases (hDm x w).1 hw with h | ⟨h1, h2⟩
        · cases h
        · exact t.once w z x ((hr root w).2 h1) hz ((he w x).2 h2) hzx
      have hnd := hDn x (by simp)
      have hsub : st.dependents x ⊆ [z] := fun w hw => by simp [this w hw]
      have hle := (hnd.subperm hsub).length_le
      have := List.length_pos_of_mem hz'
      simp only [List.length_singleton] at hle
      omega
  have hDroot : st.dependents root = [] := by
    rw [List.eq_nil_iff_forall_not_mem]
    intro w hw
    rcases (hDm root w).1 hw with h | ⟨h1, h2⟩
    · cases h
    · exact t.acyclic root .refl (Relation.TransGen.tail' ((hr root w).2 h1) ((he w root).2 h2))
  -- the loop
  have hroot0 : topoStep st.deps st.dependents ⟨[root], fun _ => 0, []⟩ =
      some ⟨(st.deps root).reverse, Function.update (fun _ => 0) root 1, []⟩ := by
    simp [topoStep, hDroot]
  have hnr : ∀ d ∈ st.deps root, ∀ x, Reach st.deps d x → x ≠ root := fun d hd x hx h => t.not_self hd (h ▸ hx)
  obtain ⟨k, vis', hk, -⟩ := topo_tree_list (D := st.dependents) (n := n) t
    (fun d hd rest vis sorted h0 => topo_tree (chainsLt_succ.1 hc d hd) (t.sub (.single hd))
      (fun x hx => hone x (hnr d hd x hx) (.head hd hx)) rest vis sorted h0)
    (st.deps root).reverse (fun d hd => by simpa using hd) (by simpa using t.nodup root .refl) []
    (Function.update (fun _ => 0) root 1) [] (fun d hd x hx => by
      rw [Function.update_of_ne (hnr d (by simpa using hd) x hx)])
  have hk' : topoIter st.deps st.dependents (k + 1) ⟨[root], fun _ => 0, []⟩ =
      ⟨[], vis', (st.deps root).reverse.flatMap (preorder st.deps n)⟩ := by
    rw [List.append_nil] at hk
    simp only [topoIter, hroot0, hk, List.nil_append]
  have hempty := topoIter_terminates st.deps st.dependents (root :: st.nodes) hund hreach
    (topoBound st.deps (root :: st.nodes)) ⟨[root], fun _ => 0, []⟩ (by simp) (by
      have := topoPotential_sum_le st.deps st.dependents (root :: st.nodes) (fun _ => 0)
      unfold topoMeasure topoBound
      simp only [List.length_singleton]
      omega)
  have hl' : l = (st.deps root).reverse.flatMap (preorder st.deps n) := by
    rw [hl, show (GState.fresh deps).visits = fun _ => 0 from rfl,
      topoIter_eq hempty (b := k + 1) (by rw [hk']), hk']
  obtain ⟨m, p, s, hcu, hin⟩ := preorder_inside hc hu
  obtain ⟨p', q', s', hg⟩ := hde
  have hd : d ∈ st.deps u := by rw [hg]; simp
  have he' : e ∈ st.deps u := by rw [hg]; simp
  obtain ⟨xa, xb, hxs⟩ := List.append_of_mem ((mem_preorder (chainsLt_succ.1 hcu d hd)).2 hx)
  obtain ⟨ya, yb, hys⟩ := List.append_of_mem ((mem_preorder (chainsLt_succ.1 hcu e he')).2 hy)
  refine Spec.Before.reverse ⟨p ++ s'.reverse.flatMap (preorder st.deps m) ++ ya,
    yb ++ q'.reverse.flatMap (preorder st.deps m) ++ xa, xb ++ p'.reverse.flatMap (preorder st.deps m) ++ s, ?_⟩
  rw [hl', hin, hg]
  simp [hxs, hys]

/-- **C83, order of execution.** If, in the graph that setup leaves, every expression is used once, branches are run one
after the other in the order of the dependencies: with the order of `c83_sorted_partial`, cheap branches first. -/
theorem c83_run_order_partial {env : SetupEnv} {isIndep : Ref → Bool} {root : Ref} {deps : Graph}
    (hwf : WellFormed env isIndep root deps) :
    ∃ st l, sortExpressions env isIndep root (GState.fresh deps) = .ok (st, l) ∧
      (Tree st.deps root → ∀ u d e, Reach st.deps root u → Before (st.deps u) d e →
        ∀ x y, Reach st.deps d x → Reach st.deps e y → Before l.reverse x y) := by
  obtain ⟨hord, ⟨n, hn, hlim⟩, hnd, hi⟩ := hwf
  obtain ⟨st, l, g1, h1, -, -, hw, -, -, -, hsub, hc1, hnodes, -⟩ :=
    sortExpressions_fresh env isIndep root deps n hord hn hlim hnd hi
  refine ⟨st, l, h1, ?_⟩
  intro t u d e hu hde x y hx hy
  have hc : ChainsLt st.deps root (n + 1) := hc1.of_edge_imp fun a b h => hsub a b h
  obtain ⟨-, -, hreg, -⟩ := sortExpressions_inv h1
  obtain ⟨ns, hns, hnsn, -⟩ := registerNodes_nil (hn.mono hlim.le)
  rw [show (GState.fresh deps).nodes = [] from rfl, show (GState.fresh deps).deps = deps from rfl, hns] at hreg
  obtain rfl := Option.some.inj hreg
  refine tree_run_order h1 hc hlim
    (List.nodup_cons.2 ⟨fun h => hn.acyclic root .refl ((hnodes root).1 h), hnsn⟩) ?_ t hu hde hx hy
  intro v hv w hvw
  refine List.mem_cons_of_mem _ ((hnodes w).2 ?_)
  rcases (hw v w).1 (hsub v w hvw) with h | ⟨-, -, -, h⟩
  · rcases List.mem_cons.1 hv with rfl | hv
    · exact .single h
    · exact ((hnodes v).1 hv).tail h
  · exact .single h

/-! ## Trees -/

theorem removeIndirectAll_kept (o : SetOrder Nat) (g : Graph) (nodes : List Ref)
    (h : ∀ u ∈ nodes, removeCandidates g u = []) : removeIndirectAll o nodes g = g := by
  unfold removeIndirectAll
  induction nodes with
  | nil => rfl
  | cons a t ih =>
    have hnil : o.list (removeCandidates g a) = [] := by
      rw [h a (by simp), List.eq_nil_iff_forall_not_mem]
      intro x hx
      rw [o.mem_iff] at hx
      cases hx
    have : removeIndirect o g a = g := by
      unfold removeIndirect reducedDeps
      simp only [hnil, List.reverse_nil, List.foldl_nil, Function.update_eq_self]
    rw [List.foldl_cons, this, ih fun u hu => h u (by simp [hu])]

theorem addIndeps_kept (o : SetOrder Ref) {isIndep : Ref → Bool} {root : Ref} (g : Graph) (nodes : List Ref)
    (h : ∀ i ∈ g root, isIndep i = false) : addIndeps o isIndep root nodes g = g := by
  unfold addIndeps
  have : ∀ u, (g root).foldl (fun g' i => if isIndep i then (if isIndep u then g' else addDep o g' u i) else g') g = g := by
    intro u
    suffices ∀ l : List Ref, (∀ i ∈ l, isIndep i = false) →
        l.foldl (fun g' i => if isIndep i then (if isIndep u then g' else addDep o g' u i) else g') g = g from this _ h
    intro l hl
    induction l with
    | nil => rfl
    | cons i l ih =>
      rw [List.foldl_cons, hl i (by simp)]
      exact ih fun j hj => hl j (by simp [hj])
  induction nodes with
  | nil => rfl
  | cons a t ih => rw [List.foldl_cons, this a, ih]

/-- Setup where no pass changes the graph. -/
theorem sortExpressions_kept (env : SetupEnv) {isIndep : Ref → Bool} {root : Ref} {deps : Graph}
    (hc : ChainsLt deps root env.limit) (hi : ∀ i ∈ deps root, isIndep i = false)
    (hk : ∀ u, Needs deps root u → removeCandidates deps u = []) :
    ∃ st l, sortExpressions env isIndep root (GState.fresh deps) = .ok (st, l) ∧ (∀ u, (st.deps u).Perm (deps u)) ∧
      dagCost deps env.limit root (fun _ => 1) = some st.cost ∧ st.nodes.Nodup ∧ (∀ v, v ∈ st.nodes ↔ Needs deps root v) ∧
      ∀ u k, (st.deps u).filter (st.cost · = k) = (deps u).filter (st.cost · = k) := by
  obtain ⟨nodes, hreg, hnd, hmem⟩ := registerNodes_nil hc
  obtain ⟨D, hD, hDm, -⟩ := addFwdEdges_spec env.ov (d := fun _ => []) hc
  obtain ⟨cost, hcost⟩ := dagCost_isSome (fun _ => 1) hc
  have hany : ¬ (nodes.any fun v => (D v).length == 0) = true := by
    simp only [List.any_eq_true, not_exists, not_and]
    intro v hv hlen
    obtain ⟨u, hru, huv⟩ := Relation.TransGen.tail'_iff.1 ((hmem v).1 hv)
    have : u ∈ D v := (hDm v u).2 (Or.inr ⟨hru, huv⟩)
    simp only [beq_iff_eq, List.length_eq_zero_iff] at hlen
    simp [hlen] at this
  have hr := removeIndirectAll_kept env.oi deps nodes fun u hu => hk u ((hmem u).1 hu)
  unfold sortExpressions
  simp only [GState.fresh, hreg, addIndeps_kept env.ov deps nodes hi, hr, hD, hcost, hany, Bool.false_eq_true, if_false]
  exact ⟨_, _, rfl, fun u => sortAll_perm _ _ _ _ _, rfl, hnd, hmem, fun u k => sortAll_stable _ _ _ _ _ _⟩

theorem Spec.Below.congr {g g' : Graph} (h : ∀ u, (g u).Perm (g' u)) {u k : Nat} (hb : Below g u k) : Below g' u k := by
  obtain ⟨l, h1, h2, h3⟩ := hb
  have he : ∀ a b, Edge g a b ↔ Edge g' a b := fun a b => (h a).mem_iff
  exact ⟨l, h1, fun x => (h2 x).trans (reach_iff_of_needs_iff (needs_congr he) u x), h3⟩

theorem Spec.Below.unique {g : Graph} {u k k' : Nat} (h : Below g u k) (h' : Below g u k') : k = k' := by
  obtain ⟨l, h1, h2, rfl⟩ := h
  obtain ⟨l', h1', h2', rfl⟩ := h'
  exact ((List.perm_ext_iff_of_nodup h1 h1').2 fun x => (h2 x).trans (h2' x).symm).length_eq

/-- **C83 for trees**, with no independent variable among the outputs: setup keeps the dependencies and puts the branches
with fewer expressions first, or last if `reverse_branch_sorting` is set, and those with equally many in the order in
which they were; and whole branches are run in that order. The outputs themselves stay as they are. -/
theorem c83_trees_partial (env : SetupEnv) {isIndep : Ref → Bool} {root : Ref} {deps : Graph} (t : Tree deps root)
    (hc : ChainsLt deps root env.limit) (hi : ∀ i ∈ deps root, isIndep i = false) :
    ∃ st l, sortExpressions env isIndep root (GState.fresh deps) = .ok (st, l) ∧ (∀ u, (st.deps u).Perm (deps u)) ∧
      (∀ u, Reach deps root u → Below deps u (st.cost u)) ∧ st.deps root = deps root ∧
      (∀ u k, (st.deps u).filter (st.cost · = k) = (deps u).filter (st.cost · = k)) ∧
      ∀ u d e, Reach deps root u → Before (st.deps u) d e →
        (u ≠ root → ∀ k k', Below deps d k → Below deps e k' → if env.reverse then k' ≤ k else k ≤ k') ∧
        ∀ x y, Reach deps d x → Reach deps e y → Before l.reverse x y := by
  have hk : ∀ u, Needs deps root u → removeCandidates deps u = [] := by
    intro u hu
    unfold removeCandidates
    rw [List.flatMap_eq_nil_iff]
    intro c hc
    rw [List.filterMap_eq_nil_iff]
    intro x hx
    unfold depIndex
    rw [List.findIdx?_eq_none_iff]
    intro y hy
    rw [beq_eq_false_iff_ne]
    rintro rfl
    have hu' : Reach deps root u := hu.to_reflTransGen
    obtain rfl := t.once u c y hu' (hu'.tail hc) hy hx
    exact t.acyclic u hu' (.single hc)
  obtain ⟨st, l, h1, h2, h3, h4, h5, h6⟩ := sortExpressions_kept env hc hi hk
  have he : ∀ a b, Edge st.deps a b ↔ Edge deps a b := fun a b => (h2 a).mem_iff
  have hr := reach_iff_of_needs_iff (needs_congr he)
  have ht : Tree st.deps root := t.congr fun u => (h2 u).symm
  have hcost : ∀ u, Reach deps root u → Below deps u (st.cost u) := (dagCost_tree t h3 fun _ _ => rfl).2
  have hroot : st.deps root = deps root := by
    have hroot : root ∉ st.nodes := fun h => t.acyclic root .refl ((h5 root).1 h)
    obtain ⟨g1, g2, -, k2, k3, -, -, k6, -⟩ := sortExpressions_inv h1
    rw [k6, sortAll_of_not_mem _ _ _ _ hroot, k3, removeIndirectAll_of_not_mem _ _ _ hroot, k2,
      (addIndeps_spec env.ov isIndep root st.nodes _ hroot).2.2 root hroot]
    rfl
  refine ⟨st, l, h1, h2, hcost, hroot, h6, ?_⟩
  intro u d e hu hde
  have hd : d ∈ deps u ∧ e ∈ deps u := by
    obtain ⟨p, q, s, hg⟩ := hde
    rw [← (h2 u).mem_iff, ← (h2 u).mem_iff, hg]
    simp
  refine ⟨fun hur k k' hbd hbe => ?_, fun x y hx hy => ?_⟩
  · rw [hbd.unique (hcost d (hu.tail hd.1)), hbe.unique (hcost e (hu.tail hd.2))]
    have hu' : Needs deps root u := by
      rcases Relation.reflTransGen_iff_eq_or_transGen.1 hu with h | h
      · exact absurd h hur
      · exact h
    have hs := c83_sorted_partial h1 ((h5 u).2 hu')
    obtain ⟨p, q, s, hg⟩ := hde
    rw [hg, List.pairwise_append] at hs
    exact (List.pairwise_cons.1 hs.2.1).1 e (by simp)
  · have hlim : env.limit ≠ 0 := fun h => not_chainsLt_zero deps root (h ▸ hc)
    obtain ⟨n, hn⟩ := Nat.exists_eq_succ_of_ne_zero hlim
    refine tree_run_order (n := n) h1 ((hn ▸ hc).of_edge_imp fun a b h => (he a b).1 h) (by omega)
      (List.nodup_cons.2 ⟨fun h => t.acyclic root .refl ((h5 root).1 h), h4⟩) ?_ ht ((hr root u).2 hu) hde
      ((hr d x).2 hx) ((hr e y).2 hy)
    intro v hv w hw
    have hw' : w ∈ deps v := (he v w).1 hw
    refine List.mem_cons_of_mem _ ((h5 w).2 ?_)
    rcases List.mem_cons.1 hv with rfl | hv
    · exact .single hw'
    · exact ((h5 v).1 hv).tail hw'

/-! ## Cycles -/

theorem dagCost_none {g : Graph} {n : Nat} {u : Ref} {c : Ref → Nat} (hc : ¬ ChainsLt g u n) : dagCost g n u c = none := by
  induction n generalizing u c with
  | zero => rfl
  | succ n ih =>
    rw [chainsLt_succ] at hc
    push Not at hc
    obtain ⟨v, hv, hcv⟩ := hc
    rw [dagCost]
    suffices ∀ (ds : List Ref) (c : Ref → Nat), v ∈ ds →
        ds.foldlM (fun c v => (dagCost g n v c).map fun c' => Function.update c' u (c u + c' v)) c = none from this _ c hv
    intro ds
    induction ds with
    | nil => intro _ h; cases h
    | cons d ds ihds =>
      intro c hvd
      rw [List.foldlM_cons]
      rcases List.mem_cons.1 hvd with rfl | hvd
      · rw [ih hcv]; rfl
      · cases hd : (dagCost g n d c).map fun c' => Function.update c' u (c u + c' d) with
        | none => rfl
        | some c' => exact ihds c' hvd

/-- **C83 is violated.** Cycles are not ignored: below a cycle `compute_dag_cost` raises RecursionError, whatever the
limit of recursions. -/
theorem c83_cycles_violated {g : Graph} {u v : Ref} (hu : Reach g u v) (hv : Needs g v v) (limit : Nat) (c : Ref → Nat) :
    dagCost g limit u c = none :=
  dagCost_none fun h => h.acyclic v hu hv

/-! ## Shared expressions -/

/-- `1` depends on `2` and `4`; `2` needs `3`, and both `3` and `4` need `5`, which has `m` dependencies. -/
def sharedFan (m : Nat) : Graph
  | 0 => [1]
  | 1 => [2, 4]
  | 2 => [3]
  | 3 => [5]
  | 4 => [5]
  | 5 => List.range' 6 m
  | _ => []

theorem sharedFan_leaf {m x : Nat} (h : 6 ≤ x) : sharedFan m x = [] := by
  match x, h with
  | x + 6, _ => rfl

theorem sharedFan_reach5 {m x : Nat} : Reach (sharedFan m) 5 x ↔ x = 5 ∨ x ∈ List.range' 6 m := by
  constructor
  · intro h
    rcases Relation.ReflTransGen.cases_head h with h | ⟨d, hd, hdx⟩
    · exact Or.inl h.symm
    · have hd' : d ∈ List.range' 6 m := hd
      rcases Relation.ReflTransGen.cases_head hdx with h | ⟨e, he, -⟩
      · exact Or.inr (h ▸ hd')
      · have : e ∈ sharedFan m d := he
        rw [sharedFan_leaf (by rw [List.mem_range'_1] at hd'; omega)] at this
        cases this
  · rintro (rfl | h)
    · exact .refl
    · exact .single h

theorem sharedFan_chains (m : Nat) : ChainsLt (sharedFan m) 0 6 := by
  have hleaf : ∀ x, 6 ≤ x → ChainsLt (sharedFan m) x 1 := fun x hx => by
    rw [chainsLt_succ, sharedFan_leaf hx]
    simp
  have h5 : ChainsLt (sharedFan m) 5 2 := by
    rw [chainsLt_succ]
    intro v hv
    exact hleaf v (List.mem_range'_1.1 hv).1
  have h3 : ChainsLt (sharedFan m) 3 3 := by rw [chainsLt_succ]; simpa [sharedFan] using h5
  have h4 : ChainsLt (sharedFan m) 4 3 := by rw [chainsLt_succ]; simpa [sharedFan] using h5
  have h2 : ChainsLt (sharedFan m) 2 4 := by rw [chainsLt_succ]; simpa [sharedFan] using h3
  have h1 : ChainsLt (sharedFan m) 1 5 := by
    rw [chainsLt_succ]
    simpa [sharedFan] using ⟨h2, h4.mono (by omega)⟩
  rw [chainsLt_succ]
  simpa [sharedFan] using h1

theorem sharedFan_candidates (m u : Nat) : removeCandidates (sharedFan m) u = [] := by
  unfold removeCandidates
  rw [List.flatMap_eq_nil_iff]
  intro c hc
  rw [List.filterMap_eq_nil_iff]
  intro x hx
  unfold depIndex
  rw [List.findIdx?_eq_none_iff]
  intro y hy
  rw [beq_eq_false_iff_ne]
  rintro rfl
  match u, hc, hy with
  | 0, hc, hy => simp [sharedFan] at hc hy; subst hc hy; simp [sharedFan] at hx
  | 1, hc, hy => simp [sharedFan] at hc hy; rcases hc with rfl | rfl <;> simp [sharedFan] at hx <;> omega
  | 2, hc, hy => simp [sharedFan] at hc hy; subst hc hy; simp [sharedFan] at hx
  | 3, hc, hy => simp [sharedFan] at hc hy; subst hc hy; simp [sharedFan] at hx
  | 4, hc, hy => simp [sharedFan] at hc hy; subst hc hy; simp [sharedFan] at hx
  | 5, hc, hy =>
    have hc' : c ∈ List.range' 6 m := hc
    rw [sharedFan_leaf (List.mem_range'_1.1 hc').1] at hx
    cases hx
  | u + 6, hc, _ => cases hc

theorem sharedFan_cost5 {m n : Nat} {c : Ref → Nat} (hc : ∀ x, 6 ≤ x → c x = 1) :
    dagCost (sharedFan m) (n + 2) 5 c = some (Function.update c 5 (c 5 + m)) := by
  have hleaf : ∀ x, 6 ≤ x → ∀ c, dagCost (sharedFan m) (n + 1) x c = some c := fun x hx c => by
    rw [dagCost, sharedFan_leaf hx]
    rfl
  have loop : ∀ (ds : List Ref) (c : Ref → Nat), (∀ x ∈ ds, 6 ≤ x) → (∀ x, 6 ≤ x → c x = 1) →
      ds.foldlM (fun c v => (dagCost (sharedFan m) (n + 1) v c).map fun c' => Function.update c' 5 (c 5 + c' v)) c =
        some (Function.update c 5 (c 5 + ds.length)) := by
    intro ds
    induction ds with
    | nil => intro c _ _; simp
    | cons d ds ih =>
      intro c hds hc
      have hd := hds d (by simp)
      rw [List.foldlM_cons, hleaf d hd]
      simp only [Option.map_some, hc d hd]
      refine (ih _ (fun x hx => hds x (by simp [hx])) fun x hx => ?_).trans ?_
      · rw [Function.update_of_ne (by omega), hc x hx]
      · simp [Nat.add_assoc, Nat.add_comm 1]
  rw [dagCost]
  have := loop (List.range' 6 m) c (fun x hx => (List.mem_range'_1.1 hx).1) hc
  rw [List.length_range'] at this
  exact this

theorem sharedFan_cost {m n : Nat} {c : Ref → Nat} (h : dagCost (sharedFan m) (n + 6) 0 (fun _ => 1) = some c) :
    c 2 = m + 3 ∧ c 4 = 2 * m + 2 := by
  have h3 : dagCost (sharedFan m) (n + 3) 3 (fun _ => 1) =
      some (Function.update (Function.update (fun _ => 1) 5 (1 + m)) 3 (1 + (1 + m))) := by
    rw [dagCost]
    simp [sharedFan, sharedFan_cost5]
  have h2 : dagCost (sharedFan m) (n + 4) 2 (fun _ => 1) =
      some (Function.update (Function.update (Function.update (fun _ => 1) 5 (1 + m)) 3 (1 + (1 + m))) 2 (1 + (1 + (1 + m)))) := by
    rw [dagCost]
    simp [sharedFan, h3]
  have h4 : ∀ c : Ref → Nat, (∀ x, 6 ≤ x → c x = 1) → dagCost (sharedFan m) (n + 4) 4 c =
      some (Function.update (Function.update c 5 (c 5 + m)) 4 (c 4 + (c 5 + m))) := by
    intro c hc
    rw [dagCost]
    simp [sharedFan, sharedFan_cost5 (n := n + 1) hc]
  rw [dagCost, show sharedFan m 0 = [1] from rfl, List.foldlM_cons] at h
  cases hc1 : dagCost (sharedFan m) (n + 5) 1 (fun _ => 1) with
  | none => rw [hc1] at h; cases h
  | some c1 =>
    rw [hc1] at h
    obtain rfl := Option.some.inj h
    simp only [Function.update_of_ne (show (2 : Nat) ≠ 0 by decide), Function.update_of_ne (show (4 : Nat) ≠ 0 by decide)]
    rw [dagCost, show sharedFan m 1 = [2, 4] from rfl, List.foldlM_cons, h2] at hc1
    simp only [Option.map_some, Option.bind_eq_bind, Option.bind_some, List.foldlM_cons, List.foldlM_nil] at hc1
    rw [h4 _ fun x hx => by simp [Function.update_of_ne, show x ≠ 1 by omega, show x ≠ 2 by omega, show x ≠ 3 by omega,
      show x ≠ 5 by omega]] at hc1
    obtain rfl := Option.some.inj hc1
    constructor
    · simp [Function.update_apply]; omega
    · simp [Function.update_apply]; omega

theorem below_chain {g : Graph} {u v k : Nat} (h : g u = [v]) (hu : ¬ Reach g v u) (hv : Below g v k) :
    Below g u (k + 1) := by
  obtain ⟨l, h1, h2, h3⟩ := hv
  refine ⟨u :: l, List.nodup_cons.2 ⟨fun hm => hu ((h2 u).1 hm), h1⟩, fun x => ?_, by simp [h3]⟩
  rw [List.mem_cons, h2]
  constructor
  · rintro (rfl | hx)
    · exact .refl
    · exact .head (show v ∈ g u by rw [h]; simp) hx
  · intro hx
    rcases Relation.ReflTransGen.cases_head hx with hx | ⟨d, hd, hdx⟩
    · exact Or.inl hx.symm
    · have hd' : d ∈ g u := hd
      rw [h, List.mem_singleton] at hd'
      exact Or.inr (hd' ▸ hdx)

theorem sharedFan_below (m : Nat) : Below (sharedFan m) 2 (m + 3) ∧ Below (sharedFan m) 4 (m + 2) := by
  have h5 : Below (sharedFan m) 5 (m + 1) := by
    refine ⟨5 :: List.range' 6 m, List.nodup_cons.2 ⟨fun h => ?_, List.nodup_range'⟩, fun x => ?_, by simp⟩
    · have := (List.mem_range'_1.1 h).1
      omega
    · rw [List.mem_cons, sharedFan_reach5]
  have not5 : ∀ x < 5, ¬ Reach (sharedFan m) 5 x := by
    intro x hx h
    rcases sharedFan_reach5.1 h with h | h
    · omega
    · have := (List.mem_range'_1.1 h).1
      omega
  have h3 := below_chain (g := sharedFan m) (u := 3) rfl (not5 3 (by omega)) h5
  refine ⟨below_chain (g := sharedFan m) (u := 2) rfl (fun h => ?_) h3,
    below_chain (g := sharedFan m) (u := 4) rfl (not5 4 (by omega)) h5⟩
  rcases Relation.ReflTransGen.cases_head h with h | ⟨d, hd, hdx⟩
  · omega
  · have hd' : d ∈ [5] := hd
    rw [List.mem_singleton] at hd'
    exact not5 2 (by omega) (hd' ▸ hdx)

/-- **C83 is violated.** The cost of a shared expression grows whenever it is met, so costs are not numbers of expressions:
for every `m` the branch `2` needs one expression more than the branch `4`, but from `m = 2` on it is the cheaper one. -/
theorem c83_shared_violated (env : SetupEnv) (hlim : 6 ≤ env.limit) (m : Nat) :
    ∃ st l, sortExpressions env (fun _ => false) 0 (GState.fresh (sharedFan m)) = .ok (st, l) ∧
      Below st.deps 2 (m + 3) ∧ st.cost 2 = m + 3 ∧ Below st.deps 4 (m + 2) ∧ st.cost 4 = 2 * m + 2 := by
  obtain ⟨st, l, h1, h2, h3, -⟩ := sortExpressions_kept env (isIndep := fun _ => false) ((sharedFan_chains m).mono hlim)
    (fun _ _ => rfl) fun u _ => sharedFan_candidates m u
  obtain ⟨n, hn⟩ := Nat.exists_eq_add_of_le hlim
  rw [hn, Nat.add_comm] at h3
  have hk := sharedFan_cost h3
  exact ⟨st, l, h1, (sharedFan_below m).1.congr fun u => (h2 u).symm, hk.1,
    (sharedFan_below m).2.congr fun u => (h2 u).symm, hk.2⟩

/-! ## Examples -/

/-- `1 = f(2, 3)`, `2 = g(4)`; `5` is a second output. -/
def twoBranches : Graph
  | 0 => [1, 5]
  | 1 => [2, 3]
  | 2 => [4]
  | _ => []

/-- The shorter branch comes first, and runs first; the outputs stay as they were, the more expensive one first. -/
example : ((sortExpressions { demoEnv with reverse := false } (fun _ => false) 0 (GState.fresh twoBranches)).toOption.map fun r =>
    [r.1.deps 0, r.1.deps 1, [r.1.cost 1, r.1.cost 2, r.1.cost 3, r.1.cost 5], r.2.reverse]) =
    some [[1, 5], [3, 2], [4, 2, 1, 1], [3, 4, 2, 1, 5]] := by decide +kernel

theorem twoBranches_tree : Tree twoBranches 0 := by
  have hlt : ∀ {a b}, Needs twoBranches a b → a < b := by
    intro a b h
    have step : ∀ {x y}, Edge twoBranches x y → x < y := by
      intro x y hxy
      have hxy' : y ∈ twoBranches x := hxy
      match x, hxy' with
      | 0, h => simp [twoBranches] at h; omega
      | 1, h => simp [twoBranches] at h; omega
      | 2, h => simp [twoBranches] at h; omega
      | x + 3, h => cases h
    induction h with
    | single h => exact step h
    | tail _ h ih => exact ih.trans (step h)
  refine ⟨fun v _ h => lt_irrefl _ (hlt h), fun u _ => ?_, fun a b v _ _ ha hb => ?_⟩
  · match u with
    | 0 => decide
    | 1 => decide
    | 2 => decide
    | u + 3 => exact List.nodup_nil
  · match a, b, ha, hb with
    | 0, 0, _, _ | 1, 1, _, _ | 2, 2, _, _ => rfl
    | 0, 1, ha, hb | 0, 2, ha, hb | 1, 0, ha, hb | 1, 2, ha, hb | 2, 0, ha, hb | 2, 1, ha, hb =>
      simp [twoBranches] at ha hb; omega
    | a + 3, _, ha, _ => cases ha
    | _, b + 3, _, hb => cases hb

example : ∃ st l, sortExpressions demoEnv (fun _ => false) 0 (GState.fresh twoBranches) = .ok (st, l) ∧
    ∀ u, Reach twoBranches 0 u → Below twoBranches u (st.cost u) := by
  obtain ⟨st, l, h1, -, h2, -⟩ := c83_trees_partial demoEnv (isIndep := fun _ => false) twoBranches_tree
    ((chainsLt_of_acyclic (List.range 6) (fun v hv => by
      have : ∀ x ∈ List.range 6, ∀ y ∈ twoBranches x, y ∈ List.range 6 := by decide
      induction hv with
      | refl => decide
      | tail _ h ih => exact this _ ih _ h) twoBranches_tree.acyclic).mono (by decide)) (fun _ _ => rfl)
  exact ⟨st, l, h1, h2⟩

end OM
