import Verif.Lemmas.Setup

/-! # The passes of `Group.setup` put together -/

namespace OM
open Spec

theorem needs_congr {g g' : Graph} (h : ∀ a b, Edge g a b ↔ Edge g' a b) (a b : Ref) :
    Needs g a b ↔ Needs g' a b :=
  ⟨needs_mono fun x y hx => Relation.TransGen.single ((h x y).1 hx),
   needs_mono fun x y hx => Relation.TransGen.single ((h x y).2 hx)⟩

/-- The graph after the edges to independent variables were added (specification). -/
def WithIndeps (deps : Nat → List Nat) (isIndep : Nat → Bool) (root : Nat) (g1 : Graph) : Prop :=
  ∀ a b, b ∈ g1 a ↔ b ∈ deps a ∨
    (Needs deps root a ∧ isIndep a = false ∧ isIndep b = true ∧ b ∈ deps root)

theorem chainsLt_withIndeps {g0 g1 : Graph} {isIndep : Ref → Bool} {root : Ref}
    (hw : WithIndeps g0 isIndep root g1)
    (hleaf : ∀ i ∈ g0 root, isIndep i = true → g0 i = []) {u n : Nat} (h : ChainsLt g0 u n) :
    ChainsLt g1 u (n + 1) := by
  induction n generalizing u with
  | zero => exact absurd h (not_chainsLt_zero _ _)
  | succ n ih =>
    rw [chainsLt_succ]
    intro v hv
    rcases (hw u v).1 hv with h' | ⟨_, _, h3, h4⟩
    · exact ih (chainsLt_succ.1 h v h')
    · rw [chainsLt_succ]
      intro x hx
      rcases (hw v x).1 hx with h' | ⟨_, h2', _, _⟩
      · rw [hleaf v h4 h3] at h'; simp at h'
      · rw [h3] at h2'; simp at h2'

/-- Everything `Group.setup` guarantees about the computed list, for a freshly built acyclic graph. -/
theorem sortExpressions_fresh (env : SetupEnv) (isIndep : Ref → Bool) (root : Ref) (deps : Graph)
    (n : Nat) (hord : ∀ u, Needs deps root u → OrderOk env.oi deps ((deps root).filter isIndep).length u)
    (hchain : ChainsLt deps root n) (hlim : n < env.limit)
    (hnd : ∀ u, Reach deps root u → (deps u).Nodup)
    (hleaf : ∀ i, Needs deps root i → isIndep i = true → deps i = []) :
    ∃ st l g1, sortExpressions env isIndep root (GState.fresh deps) = .ok (st, l) ∧
      l.Nodup ∧ (∀ v, v ∈ l ↔ Needs deps root v) ∧
      WithIndeps deps isIndep root g1 ∧
      (∀ u v, u ∈ l → Needs g1 u v → Before l u v) ∧
      st.visits root = 1 ∧ st.dependents root = [] ∧
      (∀ a b, b ∈ st.deps a → b ∈ g1 a) ∧ ChainsLt g1 root (n + 1) ∧
      (∀ v, v ∈ st.nodes ↔ Needs deps root v) ∧
      (∀ v ∈ st.nodes, st.dependents v ≠ []) ∧ (∀ v, v ∈ st.deps root → v ∈ st.nodes) := by
  unfold sortExpressions
  simp only [GState.fresh]
  obtain ⟨nodes, hreg, hnodes, hmem⟩ := registerNodes_nil (hchain.mono hlim.le)
  simp only [hreg]
  have hac0 := hchain.acyclic
  have hroot : root ∉ nodes := fun h => hac0 root Relation.ReflTransGen.refl ((hmem root).1 h)
  obtain ⟨e1, e2, e3⟩ := addIndeps_spec env.ov isIndep root nodes deps hroot
  set g1 := addIndeps env.ov isIndep root nodes deps with hg1
  have hw : WithIndeps deps isIndep root g1 := by
    intro a b
    rw [e1, hmem]
  have hc1 : ChainsLt g1 root (n + 1) := chainsLt_withIndeps hw (fun i hi => hleaf i (.single hi)) hchain
  have hac1 := hc1.acyclic
  -- reachability from the root is the same in `deps` and `g1`
  have hneeds01 : ∀ v, Needs g1 root v ↔ Needs deps root v := by
    intro v
    constructor
    · intro h
      induction h with
      | single h =>
        rcases (hw _ _).1 h with h' | ⟨h1, _⟩
        · exact Relation.TransGen.single h'
        · exact absurd h1 (hac0 root Relation.ReflTransGen.refl)
      | tail _ h ih =>
        rcases (hw _ _).1 h with h' | ⟨_, _, _, h4⟩
        · exact ih.tail h'
        · exact Relation.TransGen.single h4
    · exact needs_mono fun a b h => Relation.TransGen.single ((hw a b).2 (Or.inl h))
  have hreach01 : ∀ v, Reach g1 root v ↔ Reach deps root v := by
    intro v
    unfold Reach
    rw [Relation.reflTransGen_iff_eq_or_transGen, Relation.reflTransGen_iff_eq_or_transGen]
    exact or_congr_right (hneeds01 v)
  have hnd1 : ∀ u, Reach g1 root u → (g1 u).Nodup := fun u hu => e2 u (hnd u ((hreach01 u).1 hu))
  have hreachnodes : ∀ u ∈ nodes, Reach g1 root u := fun u hu =>
    (hreach01 u).2 ((hmem u).1 hu).to_reflTransGen
  obtain ⟨r1, r2, r3⟩ := removeIndirectAll_indeps env.oi isIndep root deps g1 nodes hmem e1 hord
    (hnd root .refl) hleaf
    (fun u hu => hnd1 u (hreachnodes u hu))
    (fun u hu x hx => hac1 x (Relation.ReflTransGen.trans (hreachnodes u hu) hx))
  set g2 := removeIndirectAll env.oi nodes g1 with hg2
  have hreach12 := reach_iff_of_needs_iff r1
  have hc2 : ChainsLt g2 root (n + 1) := hc1.of_edge_imp fun a b h => (r2 a).subset h
  obtain ⟨D, hD, hDm, hDn⟩ := addFwdEdges_spec env.ov (d := fun _ => []) (hc2.mono hlim)
  simp only [hD]
  simp only [List.not_mem_nil, false_or] at hDm
  have hzero : ¬ (nodes.any (fun v => (D v).length == 0)) = true := by
    simp only [List.any_eq_true, not_exists, not_and]
    intro v hv hlen
    have hnv : Needs g2 root v := (r1 root v).2 ((hneeds01 v).2 ((hmem v).1 hv))
    obtain ⟨u, hru, huv⟩ := Relation.TransGen.tail'_iff.1 hnv
    have : u ∈ D v := (hDm v u).2 ⟨hru, huv⟩
    simp only [beq_iff_eq, List.length_eq_zero_iff] at hlen
    simp [hlen] at this
  simp only [hzero, Bool.false_eq_true, if_false]
  obtain ⟨cost, hcost⟩ := dagCost_isSome (fun _ => 1) (hc2.mono hlim)
  simp only [hcost]
  have hperm := sortAll_perm cost env.reverse nodes g2
  set g3 := sortAll cost env.reverse nodes g2 with hg3
  have hedge23 : ∀ a b, Edge g3 a b ↔ Edge g2 a b := fun a b => (hperm a).mem_iff
  have hneeds23 := needs_congr hedge23
  have hreach23 := reach_iff_of_needs_iff hneeds23
  have hreach30 : ∀ v, Reach g3 root v ↔ Reach deps root v := fun v =>
    (hreach23 root v).trans ((hreach12 root v).trans (hreach01 v))
  have hac3 : AcyclicFrom g3 root := by
    intro v hv hvv
    exact hac1 v ((hreach12 root v).1 ((hreach23 root v).1 hv))
      ((r1 v v).1 ((hneeds23 v v).1 hvv))
  have ok : TopoOk g3 D root := by
    refine ⟨?_, ?_, ?_, ?_⟩
    · intro u hu
      rw [(hperm u).nodup_iff]
      exact (hnd1 u ((hreach12 root u).1 ((hreach23 root u).1 hu))).sublist (r2 u)
    · intro v; exact hDn v (by simp)
    · intro v u
      rw [hDm, hreach23]
      exact and_congr_right fun _ => (hedge23 u v).symm
    · rw [List.eq_nil_iff_forall_not_mem]
      intro u hu
      rw [hDm] at hu
      exact hac3 root Relation.ReflTransGen.refl
        ((hneeds23 root root).2 (Relation.TransGen.tail' hu.1 hu.2))
  have huniv : ∀ v, Reach g3 root v → v ∈ root :: nodes := by
    intro v hv
    rw [hreach30] at hv
    rcases Relation.reflTransGen_iff_eq_or_transGen.1 hv with h | h
    · simp [h]
    · exact List.mem_cons_of_mem _ ((hmem v).2 h)
  have hclosed : ∀ v ∈ root :: nodes, ∀ w ∈ g3 v, w ∈ root :: nodes := by
    intro v hv w hw'
    apply huniv
    refine Relation.ReflTransGen.tail ((hreach30 v).2 ?_) hw'
    rcases List.mem_cons.1 hv with h | h
    · exact h ▸ Relation.ReflTransGen.refl
    · exact ((hmem v).1 h).to_reflTransGen
  have hund : (root :: nodes).Nodup := List.nodup_cons.2 ⟨hroot, hnodes⟩
  have hempty := topoIter_terminates g3 D (root :: nodes) hund hclosed
    (topoBound g3 (root :: nodes)) ⟨[root], fun _ => 0, []⟩ (by simp) (by
      have := topoPotential_sum_le g3 D (root :: nodes) (fun _ => 0)
      unfold topoMeasure topoBound
      simp only [List.length_singleton]
      omega)
  have hinv : TopoInv g3 D root
      (topoIter g3 D (topoBound g3 (root :: nodes)) ⟨[root], fun _ => 0, []⟩) := by
    obtain ⟨s1, h1, h2⟩ := topoInv_first ok (fun _ => 0) (fun _ => rfl)
    unfold topoBound
    simp only [topoIter, h1]
    exact topoInv_iter ok _ h2
  set s := topoIter g3 D (topoBound g3 (root :: nodes)) ⟨[root], fun _ => 0, []⟩ with hs
  have hmemiff : ∀ v, v ∈ s.sorted ↔ Needs deps root v := by
    intro v
    rw [topo_mem_iff ok hinv hempty (root :: nodes) huniv v]
    have h1 : Needs g3 root v ↔ Needs deps root v :=
      (hneeds23 root v).trans ((r1 root v).trans (hneeds01 v))
    rw [h1]
    constructor
    · exact fun h => h.1
    · intro h
      refine ⟨h, ?_⟩
      rintro ⟨c, hc, hcc, _⟩
      exact hac3 c hc hcc
  have hsub : ∀ a b, b ∈ g3 a → b ∈ g1 a := fun a b hb => (r2 a).subset ((hedge23 a b).1 hb)
  refine ⟨_, _, g1, rfl, (List.nodup_cons.1 hinv.nodup).2, hmemiff, hw, ?_, hinv.root_visits,
    ok.droot, hsub, hc1, hmem, ?_, ?_⟩
  rotate_left
  · intro v hv h0
    apply hzero
    rw [List.any_eq_true]
    exact ⟨v, hv, by simp [show D v = [] from h0]⟩
  · intro v hv
    exact (hmem v).2 ((hneeds01 v).1 (Relation.TransGen.single (hsub root v hv)))
  intro u v hu huv
  have hru : Reach g3 root u := (hreach30 u).2 ((hmemiff u).1 hu).to_reflTransGen
  have h3 : Needs g3 u v := (hneeds23 u v).2 ((r1 u v).2 huv)
  have hv : v ∈ s.sorted := by
    rw [hmemiff, ← hneeds01, ← r1, ← hneeds23]
    exact Relation.TransGen.trans_right hru h3
  have hidx := hinv.up ok hru h3 (List.mem_cons_of_mem _ hv)
  have hb := before_of_idxOf_lt (List.mem_cons_of_mem _ hv) hidx.2
  refine Spec.Before.tail_of_ne hb ?_
  intro e
  exact (List.nodup_cons.1 hinv.nodup).1 (e ▸ hu)

end OM
