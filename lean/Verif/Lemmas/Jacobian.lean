import Verif.Spec.Jacobian
import Mathlib.Analysis.Calculus.FDeriv.Add
import Mathlib.Analysis.Calculus.FDeriv.Mul
import Mathlib.Analysis.Calculus.FDeriv.Pi
import Mathlib.Analysis.Calculus.Deriv.Basic
import Mathlib.Analysis.Calculus.Deriv.Comp
import Mathlib.Data.List.GetD

namespace OM
open Spec

/-- A flat array as a function on all positions (the code never reads beyond the end). -/
def flat {N : Nat} (x : Fin N → ℝ) (i : Nat) : ℝ := if h : i < N then x ⟨i, h⟩ else 0

theorem flat_val {N : Nat} (x : Fin N → ℝ) (i : Fin N) : flat x i = x i := by
  simp [flat]

theorem flat_of_lt {N : Nat} (x : Fin N → ℝ) {i : Nat} (h : i < N) : flat x i = x ⟨i, h⟩ := by
  simp [flat, h]

/-- A sparse matrix applied to a vector. -/
def cooApply (rows cols : List Nat) (vals : List ℝ) (y : Nat → ℝ) (i : Nat) : ℝ :=
  ((rows.zip (cols.zip vals)).map fun p => if p.1 = i then p.2.2 * y p.2.1 else 0).sum

theorem entries_sum (l : List (Nat × Nat × ℝ)) {N : Nat} (hl : ∀ p ∈ l, p.2.1 < N) (y : Fin N → ℝ)
    (i : Nat) :
    ∑ j : Fin N, (l.map fun p => if p.1 = i ∧ p.2.1 = (j : Nat) then p.2.2 else 0).sum * y j =
      (l.map fun p => if p.1 = i then p.2.2 * flat y p.2.1 else 0).sum := by
  induction l with
  | nil => simp
  | cons p l ih =>
    simp only [List.map_cons, List.sum_cons, add_mul, Finset.sum_add_distrib]
    rw [ih fun q hq => hl q (by simp [hq])]
    congr 1
    have hp := hl p (by simp)
    rw [Finset.sum_eq_single (⟨p.2.1, hp⟩ : Fin N)]
    · by_cases h : p.1 = i <;> simp [h, flat_of_lt y hp]
    · intro j _ hj
      rw [if_neg, zero_mul]
      rintro ⟨_, h⟩
      exact hj (Fin.ext h.symm)
    · simp

theorem mem_zip_cols {rows cols : List Nat} {vals : List ℝ} {p : Nat × Nat × ℝ}
    (h : p ∈ rows.zip (cols.zip vals)) : p.2.1 ∈ cols :=
  (List.of_mem_zip (List.of_mem_zip h).2).1

theorem coo_sum {rows cols : List Nat} {vals : List ℝ} {N : Nat} (hc : ∀ c ∈ cols, c < N)
    (y : Fin N → ℝ) (i : Nat) :
    ∑ j : Fin N, cooEntry rows cols vals i j * y j = cooApply rows cols vals (flat y) i :=
  entries_sum _ (fun p hp => hc _ (mem_zip_cols hp)) y i

theorem cooApply_eq_sum (rows cols : List Nat) (vals : List ℝ) (y : Nat → ℝ) (i : Nat) {n : Nat}
    (hr : rows.length = n) (hc : cols.length = n) (hv : vals.length = n) :
    cooApply rows cols vals y i =
      ∑ k ∈ Finset.range n, if rows.getD k 0 = i then vals.getD k 0 * y (cols.getD k 0) else 0 := by
  unfold cooApply
  induction rows generalizing cols vals n with
  | nil => simp at hr; subst hr; simp
  | cons r rows ih =>
    cases cols with
    | nil => simp at hr hc; omega
    | cons c cols =>
      cases vals with
      | nil => simp at hr hv; omega
      | cons v vals =>
        obtain ⟨m, rfl⟩ : ∃ m, n = m + 1 := ⟨n - 1, by simp at hr; omega⟩
        simp only [List.zip_cons_cons, List.map_cons, List.sum_cons]
        rw [ih cols vals (by simpa using hr) (by simpa using hc) (by simpa using hv),
          Finset.sum_range_succ']
        simp [add_comm]

/-- One entry per row: row `i` has the single entry `vals[i]` in column `cols[i]`. -/
theorem cooApply_range {cols : List Nat} {vals : List ℝ} (y : Nat → ℝ) {i n : Nat}
    (hc : cols.length = n) (hv : vals.length = n) (hi : i < n) :
    cooApply (List.range n) cols vals y i = vals.getD i 0 * y (cols.getD i 0) := by
  rw [cooApply_eq_sum _ _ _ _ _ (List.length_range) hc hv, Finset.sum_eq_single i]
  · rw [if_pos]
    simp [List.getD_eq_getElem?_getD, hi]
  · intro k hk hki
    rw [if_neg]
    rw [Finset.mem_range] at hk
    simp only [List.getD_eq_getElem?_getD, List.getElem?_range hk]
    simpa using hki
  · simp [hi]

variable {κ ι : Type} [Fintype κ]

theorem sum_smul_proj_apply (a : κ → ℝ) (y : κ → ℝ) :
    (∑ j, a j • (ContinuousLinearMap.proj j : (κ → ℝ) →L[ℝ] ℝ)) y = ∑ j, a j * y j := by
  simp

/-- Affine functions. -/
theorem isJacobian_affine {F : (κ → ℝ) → ι → ℝ} {J : ι → κ → ℝ} (c : ι → ℝ)
    (h : ∀ y i, F y i = c i + ∑ j, J i j * y j) (x : κ → ℝ) : IsJacobian F x J := by
  intro i
  have h1 : HasFDerivAt (fun y : κ → ℝ =>
      c i + (∑ j, J i j • (ContinuousLinearMap.proj j : (κ → ℝ) →L[ℝ] ℝ)) y)
      (∑ j, J i j • (ContinuousLinearMap.proj j : (κ → ℝ) →L[ℝ] ℝ)) x :=
    (ContinuousLinearMap.hasFDerivAt _).const_add _
  refine h1.congr_of_eventuallyEq (Filter.Eventually.of_forall fun y => ?_)
  simp only [h y i, sum_smul_proj_apply]

/-- A Jacobian is determined by its action. -/
theorem isJacobian_of_hasFDerivAt {F : (κ → ℝ) → ι → ℝ} {x : κ → ℝ} {J : ι → κ → ℝ}
    {L : ι → (κ → ℝ) →L[ℝ] ℝ} (hF : ∀ i, HasFDerivAt (fun y => F y i) (L i) x)
    (hJ : ∀ i v, L i v = ∑ j, J i j * v j) : IsJacobian F x J := by
  intro i
  refine (hF i).congr_fderiv ?_
  ext v
  rw [sum_smul_proj_apply, hJ]

/-- Elementwise functions: output `i` depends on input `s i` only. -/
theorem isJacobian_elementwise {F : (κ → ℝ) → ι → ℝ} {x : κ → ℝ} {J : ι → κ → ℝ} (s : ι → κ)
    (f : ι → ℝ → ℝ) (f' : ι → ℝ) (hF : ∀ y i, F y i = f i (y (s i)))
    (hf : ∀ i, HasDerivAt (f i) (f' i) (x (s i)))
    (hJ : ∀ i (v : κ → ℝ), ∑ j, J i j * v j = f' i * v (s i)) : IsJacobian F x J := by
  refine isJacobian_of_hasFDerivAt (L := fun i =>
    f' i • (ContinuousLinearMap.proj (s i) : (κ → ℝ) →L[ℝ] ℝ)) (fun i => ?_) ?_
  · have hp : HasFDerivAt (fun y : κ → ℝ => y (s i))
        (ContinuousLinearMap.proj (s i) : (κ → ℝ) →L[ℝ] ℝ) x := hasFDerivAt_apply _ _
    exact ((hf i).comp_hasFDerivAt x hp).congr_of_eventuallyEq
      (Filter.Eventually.of_forall fun y => hF y i)
  · intro i v
    simp [hJ]

end OM
