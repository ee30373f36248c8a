import Verif.Props.Shared

/-!
# C72: which expressions are built in the surrounding group, and in what order
-/

namespace OM
open Spec
open Classical

/-- **C72: exactly which expressions are built where.** A block described by `depsI` is set up, then the group around
it, described by `depsO`. In the block every expression it needs is built once. The setup of the surrounding group
leaves the dependencies `st'.deps`: some of those described and of those on its independent variables, enough to imply
all described. An expression is built in the surrounding group if and only if one of its dependents left there is not
used in the block, and then exactly once. In particular an expression is built there if it was described as dependency
of an expression `u` that the block does not use, and not only through expressions of the block. -/
theorem c72_built_where {env env' : SetupEnv} {isIndep : Ref → Bool} {rI rO : Ref} {depsI : Graph}
    (hI : WellFormed env isIndep rI depsI) :
    ∃ st lI, sortExpressions env isIndep rI (GState.fresh depsI) = .ok (st, lI) ∧
      (∀ v, (Needs depsI rI v → lI.count v = 1) ∧ (¬ Needs depsI rI v → lI.count v = 0)) ∧
      ∀ depsO, (∀ v, Reach depsI rI v → depsO v = st.deps v) → WellFormed env' isIndep rO depsO →
        ¬ Reach depsI rI rO → ¬ Reach depsO rO rI →
        ∃ st' lO, sortExpressions env' isIndep rO { st with deps := depsO, nodes := [] } = .ok (st', lO) ∧
          (∀ u v, v ∈ st'.deps u → v ∈ depsO u ∨ (isIndep v = true ∧ v ∈ depsO rO)) ∧
          (∀ u v, Needs depsO u v → Needs st'.deps u v) ∧
          (∀ v, lO.count v = if Needs depsO rO v ∧
            ∃ u, Reach depsO rO u ∧ ¬ Needs depsI rI u ∧ v ∈ st'.deps u then 1 else 0) ∧
          ∀ u v, Reach depsO rO u → ¬ Needs depsI rI u → v ∈ depsO u →
            (∀ w, Needs depsI rI w → Needs depsO u w → v ∉ depsO w) → lO.count v = 1 := by
  obtain ⟨hord, ⟨n, hn, hlim⟩, hnd, hi⟩ := hI
  obtain ⟨st, lI, g1, i1, i2, i3, i4, -, i6, i7, i8, i9, i10, i11, i12, i13, i14⟩ :=
    sortExpressions_shared env isIndep rI depsI (fun _ => []) (fun _ => 0) (fun _ => 1) n hord hn hlim hnd hi
      (by simp) (by simp) rfl
  obtain ⟨j1, j2⟩ := i4 (fun _ => True) trivial (fun _ _ _ _ _ => trivial) (by simp)
  refine ⟨st, lI, i1, fun v => ⟨fun h => (j1 v trivial h).1,
    fun h => List.count_eq_zero_of_not_mem fun hm => h (i3 v hm)⟩, ?_⟩
  intro depsO hagree hO hrO hrI
  obtain ⟨hord', ⟨n', hn', hlim'⟩, hnd', hi'⟩ := hO
  have hacO := hn'.acyclic
  have hmemd : ∀ v u, u ∈ st.dependents v ↔ Reach depsI rI u ∧ v ∈ st.deps u := by
    intro v u
    rw [i10]
    simp
  have hreachI : ∀ u, Reach g1 rI u ↔ Reach depsI rI u := by
    intro u
    unfold Reach
    rw [Relation.reflTransGen_iff_eq_or_transGen, Relation.reflTransGen_iff_eq_or_transGen]
    exact or_congr_right (i14 u)
  have hstepI : ∀ u v, Reach depsI rI u → v ∈ st.deps u → Needs depsI rI v := fun u v hu hv =>
    (i14 v).1 (Relation.TransGen.tail' ((hreachI u).2 hu) (i11 u v hv))
  have hclosed : ∀ u v, Needs depsI rI u → Needs depsO u v → Needs depsI rI v := by
    intro u v hu huv
    induction huv with
    | single h =>
      exact hstepI _ _ hu.to_reflTransGen (by rw [← hagree _ hu.to_reflTransGen]; exact h)
    | tail _ h ih =>
      exact hstepI _ _ ih.to_reflTransGen (by rw [← hagree _ ih.to_reflTransGen]; exact h)
  have hvis : ∀ v, Reach depsO rO v → st.visits v = (st.dependents v).length := by
    intro v hv
    by_cases hvI : Needs depsI rI v
    · exact (j1 v trivial hvI).2
    · have hne : ¬ Reach depsI rI v := by
        intro h
        rcases Relation.reflTransGen_iff_eq_or_transGen.1 h with h | h
        · exact hrI (h ▸ hv)
        · exact hvI h
      have : st.dependents v = [] := by
        rw [List.eq_nil_iff_forall_not_mem]
        intro u hu
        obtain ⟨h1, h2⟩ := (hmemd v u).1 hu
        exact hvI (hstepI u v h1 h2)
      rw [i6 v hne, this]
      rfl
  obtain ⟨st', lO, gO, o1, oc, o2, o3, -, -, -, -, -, -, -, o11, o12, o13, -⟩ := sortExpressions_shared_counts env' isIndep rO depsO st.dependents st.visits
    st.cost n' hord' hn' hlim' hnd' hi' i9 hvis (by
      rw [List.eq_nil_iff_forall_not_mem]
      intro u hu
      obtain ⟨h1, h2⟩ := (hmemd rO u).1 hu
      exact hrO (hstepI u rO h1 h2).to_reflTransGen)
  -- edges to expressions that are not independent variables of the surrounding group
  have hedge : ∀ u v, v ∈ gO u → (isIndep v = false ∨ v ∉ depsO rO) → v ∈ depsO u := by
    intro u v h hv
    rcases (o2 u v).1 h with h | ⟨_, _, h3, h4⟩
    · exact h
    · rcases hv with hv | hv
      · simp [h3] at hv
      · exact absurd h4 hv
  have hnotleaf : ∀ u v, v ∈ depsO u → (isIndep u = false ∨ u ∉ depsO rO) := by
    intro u v h
    by_contra hc
    push Not at hc
    have := hi' u (.single hc.2) (by simpa using hc.1)
    simp [this] at h
  have hneeds : ∀ u v, Needs gO u v → (isIndep v = false ∨ v ∉ depsO rO) → Needs depsO u v := by
    intro u v h
    induction h with
    | single h => exact fun hv => Relation.TransGen.single (hedge _ _ h hv)
    | tail _ h ih =>
      intro hv
      have h' := hedge _ _ h hv
      exact (ih (hnotleaf _ _ h')).tail h'
  have hreachO : ∀ u v, Reach depsO rO u → v ∈ gO u → Needs depsO rO v := by
    intro u v hu hv
    rcases (o2 u v).1 hv with h | ⟨_, _, _, h⟩
    · exact Relation.TransGen.tail' hu h
    · exact Relation.TransGen.single h
  have hnew : ∀ u v, Reach depsO rO u → ¬ Needs depsI rI u → u ∉ st.dependents v := by
    intro u v hu hn hd
    obtain ⟨h1, -⟩ := (hmemd v u).1 hd
    rcases Relation.reflTransGen_iff_eq_or_transGen.1 h1 with h | h
    · exact hrI (h ▸ hu)
    · exact hn h
  have hroot : ∀ v, v ∈ depsO rO → v ∈ st'.deps rO := by
    intro v hv
    rw [o13 rO (hacO rO .refl)]
    exact hv
  have hrOI : ¬ Needs depsI rI rO := fun h => hrO h.to_reflTransGen
  have hcount : ∀ v, lO.count v = if Needs depsO rO v ∧
      ∃ u, Reach depsO rO u ∧ ¬ Needs depsI rI u ∧ v ∈ st'.deps u then 1 else 0 := by
    intro v
    by_cases hv : Needs depsO rO v
    · rw [oc v hv.to_reflTransGen]
      congr 1
      simp only [eq_iff_iff]
      constructor
      · rintro ⟨u, h1, h2, h3⟩
        refine ⟨hv, ?_⟩
        by_cases hu : Needs depsI rI u
        · by_cases hvi : isIndep v = false ∨ v ∉ depsO rO
          · refine absurd ((hmemd v u).2 ⟨hu.to_reflTransGen, ?_⟩) h3
            rw [← hagree u hu.to_reflTransGen]
            exact hedge u v (o11 u v h2) hvi
          · push Not at hvi
            exact ⟨rO, .refl, hrOI, hroot v hvi.2⟩
        · exact ⟨u, h1, hu, h2⟩
      · rintro ⟨-, u, h1, h2, h3⟩
        exact ⟨u, h1, h3, hnew u v h1 h2⟩
    · rw [if_neg fun h => hv h.1]
      exact List.count_eq_zero_of_not_mem fun hm => hv (o3 v hm)
  refine ⟨st', lO, o1, fun u v h => ?_, fun u v h => ?_, hcount, fun u v hu hn huv hno => ?_⟩
  · rcases (o2 u v).1 (o11 u v h) with h | ⟨_, _, h3, h4⟩
    · exact Or.inl h
    · exact Or.inr ⟨h3, h4⟩
  · rw [o12]
    exact needs_mono (fun a b hab => Relation.TransGen.single ((o2 a b).2 (Or.inl hab))) h
  · rw [hcount, if_pos]
    refine ⟨Relation.TransGen.tail' hu huv, ?_⟩
    by_cases hvi : isIndep v = false ∨ v ∉ depsO rO
    · have h1 : Needs st'.deps u v := (o12 u v).2 (Relation.TransGen.single ((o2 u v).2 (Or.inl huv)))
      obtain ⟨w, hw, hwv⟩ := Relation.TransGen.tail'_iff.1 h1
      have hwv' := hedge w v (o11 w v hwv) hvi
      rcases Relation.reflTransGen_iff_eq_or_transGen.1 hw with h | h
      · exact ⟨u, hu, hn, h ▸ hwv⟩
      · have huw := hneeds u w ((o12 u w).1 h) (hnotleaf w v hwv')
        exact ⟨w, hu.trans huw.to_reflTransGen, fun hI => hno w hI huw hwv', hwv⟩
    · push Not at hvi
      exact ⟨rO, .refl, hrOI, hroot v hvi.2⟩

/-! ## The order of execution -/

/-- `2` is an input, `3 = f(2)`; in the block `4 = g(3)` is registered. -/
def outOfOrderI : Graph := ofAdj [[], [4], [], [2], [3], [], []]

/-- The group around the block: `5 = h(3)` and `4` are registered. -/
def outOfOrderO : Graph := ofAdj [[5, 4], [4], [], [2], [3], [3], []]

theorem outOfOrderI_wellFormed : WellFormed demoEnv (fun _ => false) 1 outOfOrderI :=
  wellFormed_ofAdj _ 1 (by decide) (fun u => [9, 9, 0, 1, 2, 2, 0].getD u 0) (by decide) (by decide) (by decide)

theorem outOfOrderO_wellFormed : WellFormed demoEnv (fun _ => false) 0 outOfOrderO :=
  wellFormed_ofAdj _ 0 (by decide) (fun u => [9, 9, 0, 1, 2, 2, 0].getD u 0) (by decide) (by decide) (by decide)

/-- **C72, refuted for the order of execution.** Two groups meeting the conditions of `c72_built_where`. In the
surrounding group `3` and `5`, which depends on `3`, are built, `5` before `3`: the visit of `3` from the expression
`4` of the block is counted as if it came from `5`. -/
theorem c72_order_violated :
    WellFormed demoEnv (fun _ => false) 1 outOfOrderI ∧ WellFormed demoEnv (fun _ => false) 0 outOfOrderO ∧
    execOrder demoEnv (fun _ => false) 1 (GState.fresh outOfOrderI) = .ok [2, 3, 4] ∧
    (∀ v, Reach outOfOrderI 1 v →
      outOfOrderO v = (stateAfter demoEnv (fun _ => false) 1 (GState.fresh outOfOrderI)).deps v) ∧
    ¬ Reach outOfOrderI 1 0 ∧ ¬ Reach outOfOrderO 0 1 ∧ 3 ∈ outOfOrderO 5 ∧
    execOrder demoEnv (fun _ => false) 0
      { stateAfter demoEnv (fun _ => false) 1 (GState.fresh outOfOrderI) with deps := outOfOrderO, nodes := [] }
      = .ok [5, 3, 4] := by
  have h1 : ∀ v, Reach outOfOrderI 1 v → v ∈ [1, 2, 3, 4] := fun v hv =>
    reach_mem [1, 2, 3, 4] (by decide) (by decide) hv
  have h0 : ∀ v, Reach outOfOrderO 0 v → v ∈ [0, 2, 3, 4, 5] := fun v hv =>
    reach_mem [0, 2, 3, 4, 5] (by decide) (by decide) hv
  refine ⟨outOfOrderI_wellFormed, outOfOrderO_wellFormed, by decide, ?_, fun h => ?_, fun h => ?_, by decide, by decide⟩
  · intro v hv
    have := h1 v hv
    simp only [List.mem_cons, List.not_mem_nil, or_false] at this
    rcases this with rfl | rfl | rfl | rfl <;> decide
  · exact absurd (h1 _ h) (by decide)
  · exact absurd (h0 _ h) (by decide)

end OM
