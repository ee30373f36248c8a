import Verif.Lemmas.Component

/-! # Components whose outputs depend on one entry of one input each -/

namespace OM
open Spec

/-- Output `r` is a function of entry `col r` of the only input. -/
theorem gather_exact {name : String} {N M : Nat} {compute : (String → Nat → ℝ) → Nat → ℝ}
    {partials : String → Coo} {inp : String → Nat → ℝ} (f : Nat → ℝ → ℝ) (col : Nat → Nat) (d : Nat → ℝ)
    (hcol : ∀ r < M, col r < N)
    (hc : ∀ inp, ∀ r < M, compute inp r = f r (inp name (col r)))
    (hp : partials name = ⟨List.range M, (List.range M).map col, (List.range M).map d⟩)
    (hd : ∀ r < M, HasDerivAt (f r) (d r) (inp name (col r))) :
    ExactPartials [(name, N)] M compute partials inp := by
  have hn : ([(name, N)].map Prod.fst).Nodup := by simp
  refine exactPartials_of hn ?_ ?_ (fun i => d i • inputL [(name, N)] name (col i)) ?_ ?_
  · intro p h
    rw [List.mem_singleton.1 h, hp]
    intro c hcm
    obtain ⟨r, hr, rfl⟩ := List.mem_map.1 hcm
    exact hcol r (List.mem_range.1 hr)
  · intro p h
    rw [List.mem_singleton.1 h, hp]; simp
  · intro i
    have h1 := hd i i.2
    rw [← inputsOf_slots hn inp (List.mem_singleton.2 rfl) (hcol i i.2)] at h1
    refine (h1.comp_hasFDerivAt (slots [(name, N)] inp)
      (hasFDerivAt_input [(name, N)] name (col i) (slots [(name, N)] inp))).congr_of_eventuallyEq
      (Filter.Eventually.of_forall fun y => ?_)
    exact hc _ i i.2
  · intro i v
    simp only [List.map_cons, List.map_nil, List.sum_cons, List.sum_nil, add_zero, hp, Coo.apply]
    rw [cooApply_range _ (by simp) (by simp) i.2]
    simp [List.getD_eq_getElem?_getD, inputL_apply]

/-- Output `r` is entry `col r` of the only input. -/
theorem gather_linear {name : String} {N M : Nat} {compute : (String → Nat → ℝ) → Nat → ℝ}
    {partials : String → Coo} {inp : String → Nat → ℝ} (col : Nat → Nat)
    (hcol : ∀ r < M, col r < N)
    (hc : ∀ inp, ∀ r < M, compute inp r = inp name (col r))
    (hp : partials name = ⟨List.range M, (List.range M).map col, (List.range M).map fun _ => 1⟩) :
    ExactPartials [(name, N)] M compute partials inp :=
  gather_exact (fun _ x => x) col (fun _ => 1) hcol hc hp fun _ _ => hasDerivAt_id _

end OM
