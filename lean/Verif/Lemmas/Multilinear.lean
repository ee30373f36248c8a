import Verif.Lemmas.Reduce
import Mathlib.Analysis.Calculus.FDeriv.Mul

/-! # Sums of products of input entries -/

namespace OM
open Spec

/-- A sparse matrix whose three lists are indexed by a common list, applied. -/
theorem cooApply_map {τ : Type} (T : List τ) (row col : τ → Nat) (d : τ → ℝ) (y : Nat → ℝ) (i : Nat) :
    cooApply (T.map row) (T.map col) (T.map d) y i =
      ((T.filter fun t => row t = i).map fun t => d t * y (col t)).sum := by
  unfold cooApply
  induction T with
  | nil => rfl
  | cons t T ih =>
    by_cases h : row t = i <;> simp [h, ih]

/-- Output `i` is the sum, over the terms `t` with `row t = i`, of `w t` times a product of entries of the
operands `ops` (an input may occur several times): the partials are exact if they act as the product rule
says. -/
theorem multilinear_exact {ins : List (String × Nat)} (hn : (ins.map Prod.fst).Nodup) {n : Nat}
    {compute : (String → Nat → ℝ) → Nat → ℝ} {partials : String → Coo} {inp : String → Nat → ℝ}
    (hc : ∀ p ∈ ins, ∀ c ∈ (partials p.1).cols, c < p.2)
    (hr : ∀ p ∈ ins, ∀ r ∈ (partials p.1).rows, r < n)
    {τ : Type} (T : List τ) (row : τ → Nat) (w : τ → ℝ) (ops : List String) (pos : Nat → τ → Nat)
    (hpos : ∀ t ∈ T, ∀ k (hk : k < ops.length), ∃ N, (ops[k], N) ∈ ins ∧ pos k t < N)
    (hF : ∀ inp, ∀ i < n, compute inp i = ((T.filter fun t => row t = i).map fun t =>
      w t * ∏ k : Fin ops.length, inp ops[k.1] (pos k t)).sum)
    (hP : ∀ y : String → Nat → ℝ, ∀ i < n, (ins.map fun p => (partials p.1).apply (y p.1) i).sum =
      ((T.filter fun t => row t = i).map fun t => w t * ∑ k : Fin ops.length,
        (∏ l ∈ Finset.univ.erase k, inp ops[l.1] (pos l t)) * y ops[k.1] (pos k t)).sum) :
    ExactPartials ins n compute partials inp := by
  have hinp : ∀ t ∈ T, ∀ k : Fin ops.length,
      inputsOf ins (slots ins inp) ops[k.1] (pos k t) = inp ops[k.1] (pos k t) := by
    intro t ht k
    obtain ⟨N, hm, hlt⟩ := hpos t ht k k.2
    exact inputsOf_slots hn inp hm hlt
  have hterm : ∀ t ∈ T, HasFDerivAt
      (fun y => w t * ∏ k : Fin ops.length, inputsOf ins y ops[k.1] (pos k t))
      (w t • ∑ k : Fin ops.length, (∏ l ∈ Finset.univ.erase k, inp ops[l.1] (pos l t)) •
        inputL ins ops[k.1] (pos k t)) (slots ins inp) := by
    intro t ht
    have h1 := (HasFDerivAt.finsetProd (u := Finset.univ) fun (k : Fin ops.length) _ =>
      hasFDerivAt_input ins ops[k.1] (pos k t) (slots ins inp)).const_mul (w t)
    refine h1.congr_fderiv ?_
    congr 1
    apply Finset.sum_congr rfl
    intro k _
    congr 1
    exact Finset.prod_congr rfl fun l _ => hinp t ht l
  set G : Nat → List τ := fun i => T.filter fun t => row t = i with hG
  have hGT : ∀ i, ∀ t ∈ G i, t ∈ T := fun i t ht => (List.mem_filter.1 ht).1
  refine exactPartials_of hn hc hr (fun i : Fin n => ∑ m : Fin (G i).length,
    w (G i)[m.1] • ∑ k : Fin ops.length,
      (∏ l ∈ Finset.univ.erase k, inp ops[l.1] (pos l (G i)[m.1])) •
        inputL ins ops[k.1] (pos k (G i)[m.1])) ?_ ?_
  · intro i
    refine (HasFDerivAt.fun_sum (u := Finset.univ) fun (m : Fin (G i).length) _ =>
      hterm (G i)[m.1] (hGT i _ (List.getElem_mem _))).congr_of_eventuallyEq
      (Filter.Eventually.of_forall fun y => ?_)
    beta_reduce
    rw [hF _ i i.2, ← Fin.sum_univ_fun_getElem]
  · intro i v
    rw [hP _ i i.2, ← Fin.sum_univ_fun_getElem]
    simp only [smul_apply, sum_apply, smul_eq_mul, inputL_apply]
    rfl

/-- Two different operands. -/
theorem bilinear_exact {n0 n1 : String} (hne : n0 ≠ n1) {N0 N1 n : Nat}
    {compute : (String → Nat → ℝ) → Nat → ℝ} {partials : String → Coo} {inp : String → Nat → ℝ}
    {τ : Type} (T : List τ) (row c0 c1 : τ → Nat) (w : τ → ℝ)
    (h0 : ∀ t ∈ T, c0 t < N0) (h1 : ∀ t ∈ T, c1 t < N1)
    (hc0 : ∀ c ∈ (partials n0).cols, c < N0) (hc1 : ∀ c ∈ (partials n1).cols, c < N1)
    (hr0 : ∀ r ∈ (partials n0).rows, r < n) (hr1 : ∀ r ∈ (partials n1).rows, r < n)
    (hF : ∀ inp, ∀ i < n, compute inp i = ((T.filter fun t => row t = i).map fun t =>
      w t * (inp n0 (c0 t) * inp n1 (c1 t))).sum)
    (hP0 : ∀ y, ∀ i < n, (partials n0).apply y i =
      ((T.filter fun t => row t = i).map fun t => w t * inp n1 (c1 t) * y (c0 t)).sum)
    (hP1 : ∀ y, ∀ i < n, (partials n1).apply y i =
      ((T.filter fun t => row t = i).map fun t => w t * inp n0 (c0 t) * y (c1 t)).sum) :
    ExactPartials [(n0, N0), (n1, N1)] n compute partials inp := by
  refine multilinear_exact (by simp [hne]) ?_ ?_ T row w [n0, n1]
    (fun k t => if k = 0 then c0 t else c1 t) ?_ ?_ ?_
  · intro p hp
    simp only [List.mem_cons, List.not_mem_nil, or_false] at hp
    rcases hp with rfl | rfl
    · exact hc0
    · exact hc1
  · intro p hp
    simp only [List.mem_cons, List.not_mem_nil, or_false] at hp
    rcases hp with rfl | rfl
    · exact hr0
    · exact hr1
  · intro t ht k hk
    match k, hk with
    | 0, _ => exact ⟨N0, by simp, by simpa using h0 t ht⟩
    | 1, _ => exact ⟨N1, by simp, by simpa using h1 t ht⟩
    | k + 2, h => simp at h
  · intro inp i hi
    rw [hF inp i hi]
    congr 1
    apply List.map_congr_left
    intro t _
    congr 1
    rw [show (∏ k : Fin [n0, n1].length, inp [n0, n1][k.1] (if k.1 = 0 then c0 t else c1 t)) =
      ∏ k : Fin 2, inp [n0, n1][k.1] (if k.1 = 0 then c0 t else c1 t) from rfl, Fin.prod_univ_two]
    simp
  · intro y i hi
    simp only [List.map_cons, List.map_nil, List.sum_cons, List.sum_nil, add_zero]
    rw [hP0 _ i hi, hP1 _ i hi, ← List.sum_map_add]
    congr 1
    apply List.map_congr_left
    intro t _
    rw [show (∑ k : Fin [n0, n1].length, (∏ l ∈ Finset.univ.erase k,
          inp [n0, n1][l.1] (if l.1 = 0 then c0 t else c1 t)) *
            y [n0, n1][k.1] (if k.1 = 0 then c0 t else c1 t)) =
      ∑ k : Fin 2, (∏ l ∈ Finset.univ.erase k,
          inp [n0, n1][l.1] (if l.1 = 0 then c0 t else c1 t)) *
            y [n0, n1][k.1] (if k.1 = 0 then c0 t else c1 t) from rfl, Fin.sum_univ_two]
    rw [show (Finset.univ.erase (0 : Fin 2)) = {1} from by decide,
      show (Finset.univ.erase (1 : Fin 2)) = {0} from by decide]
    simp
    ring

/-- Two different operands, and partials listed along the terms of the sum. -/
theorem bilinear_coo {n0 n1 : String} (hne : n0 ≠ n1) {N0 N1 n : Nat}
    {compute : (String → Nat → ℝ) → Nat → ℝ} {partials : String → Coo} {inp : String → Nat → ℝ}
    {τ : Type} (T : List τ) (row c0 c1 : τ → Nat) (w : τ → ℝ)
    (hrow : ∀ t ∈ T, row t < n) (h0 : ∀ t ∈ T, c0 t < N0) (h1 : ∀ t ∈ T, c1 t < N1)
    (hF : ∀ inp, ∀ i < n, compute inp i = ((T.filter fun t => row t = i).map fun t =>
      w t * (inp n0 (c0 t) * inp n1 (c1 t))).sum)
    (hP0 : partials n0 = ⟨T.map row, T.map c0, T.map fun t => w t * inp n1 (c1 t)⟩)
    (hP1 : partials n1 = ⟨T.map row, T.map c1, T.map fun t => w t * inp n0 (c0 t)⟩) :
    ExactPartials [(n0, N0), (n1, N1)] n compute partials inp := by
  have key : ∀ {f : τ → Nat} {N : Nat}, (∀ t ∈ T, f t < N) → ∀ c ∈ T.map f, c < N := by
    intro f N h c hc
    obtain ⟨t, ht, rfl⟩ := List.mem_map.1 hc
    exact h t ht
  refine bilinear_exact hne T row c0 c1 w h0 h1 ?_ ?_ ?_ ?_ hF ?_ ?_
  · rw [hP0]; exact key h0
  · rw [hP1]; exact key h1
  · rw [hP0]; exact key hrow
  · rw [hP1]; exact key hrow
  · intro y i _
    rw [Coo.apply, hP0, cooApply_map]
  · intro y i _
    rw [Coo.apply, hP1, cooApply_map]

end OM
