import Mathlib.Analysis.Calculus.FDeriv.Prod
import Mathlib.Analysis.Calculus.FDeriv.Comp
import Mathlib.Analysis.Calculus.FDeriv.Add
import Mathlib.Analysis.Calculus.FDeriv.Pi
import Verif.Props.Implicit

/-!
# Derivatives of the solution of an implicit component (C61)

The total derivatives of a model with an implicit component inside are found with `solve_linear`. Here its result is
compared with the derivative of the solution as a function of the inputs.
-/

namespace OM

section
variable {ι P : Type} [Fintype ι] [DecidableEq ι] [NormedAddCommGroup P] [NormedSpace ℝ P]

/-- The derivative of the residuals by the outputs, as a linear map. -/
noncomputable def jacL (J : ι → ι → ℝ) : (ι → ℝ) →L[ℝ] (ι → ℝ) :=
  ContinuousLinearMap.pi fun k => ∑ l, J k l • (ContinuousLinearMap.proj l : (ι → ℝ) →L[ℝ] ℝ)

omit [DecidableEq ι] in
theorem jacL_apply (J : ι → ι → ℝ) (v : ι → ℝ) (k : ι) : jacL J v k = ∑ l, J k l * v l := by
  simp [jacL]

/-- Residuals that stay zero have derivative zero. -/
theorem root_derivative {R : P → (ι → ℝ) → (ι → ℝ)} {A : P →L[ℝ] (ι → ℝ)} {J : ι → ι → ℝ} {y : P → ι → ℝ}
    {y' : P →L[ℝ] (ι → ℝ)} {q₀ : P}
    (hR : HasFDerivAt (fun z : P × (ι → ℝ) => R z.1 z.2) (A.coprod (jacL J)) (q₀, y q₀))
    (hy : HasFDerivAt y y' q₀) (hroot : ∀ᶠ q in nhds q₀, R q (y q) = 0) (dq : P) (k : ι) :
    ∑ l, J k l * y' dq l = -A dq k := by
  have h1 : HasFDerivAt (fun q => R q (y q)) ((A.coprod (jacL J)).comp ((ContinuousLinearMap.id ℝ P).prod y')) q₀ :=
    HasFDerivAt.comp (f := fun q => (q, y q)) q₀ hR ((hasFDerivAt_id q₀).prodMk hy)
  have h2 : HasFDerivAt (fun q => R q (y q)) (0 : P →L[ℝ] (ι → ℝ)) q₀ :=
    (hasFDerivAt_const (0 : ι → ℝ) q₀).congr_of_eventuallyEq hroot
  have h3 := congrFun (congrArg (fun L : P →L[ℝ] (ι → ℝ) => L dq) (h1.unique h2)) k
  have h4 : A dq k + jacL J (y' dq) k = 0 := h3
  rw [jacL_apply] at h4
  linarith

theorem solve_fwd {R : P → (ι → ℝ) → (ι → ℝ)} {A : P →L[ℝ] (ι → ℝ)} {J : ι → ι → ℝ} (hJ : ∀ k, J k k ≠ 0)
    {y : P → ι → ℝ} {y' : P →L[ℝ] (ι → ℝ)} {q₀ : P}
    (hR : HasFDerivAt (fun z : P × (ι → ℝ) => R z.1 z.2) (A.coprod (jacL J)) (q₀, y q₀))
    (hy : HasFDerivAt y y' q₀) (hroot : ∀ᶠ q in nhds q₀, R q (y q) = 0) (dq : P) (k : ι) :
    (implSolveLinear J true (fun _ => 0, fun k => -A dq k)).1 k =
      y' dq k + 1 / J k k * ∑ l ∈ Finset.univ.erase k, J k l * y' dq l := by
  have h := root_derivative hR hy hroot dq k
  rw [← Finset.add_sum_erase _ _ (Finset.mem_univ k)] at h
  simp only [implSolveLinear, if_true, implDerivs, zero_add]
  rw [← h]
  have := hJ k
  field_simp

/-- **C61, derivatives of the solution.** `y` solves the residuals near `q₀`, `A` and `J` are the derivatives of the
residuals by the inputs and outputs, and no derivative on the diagonal is zero. The derivatives of the outputs that
`solve_linear` finds in forward mode are those of the solution in direction `dq` iff in no row the other outputs
contribute. In reverse mode the derivatives of all functions of the outputs are right under the same condition. -/
theorem c61_totals_iff {R : P → (ι → ℝ) → (ι → ℝ)} {A : P →L[ℝ] (ι → ℝ)} {J : ι → ι → ℝ} (hJ : ∀ k, J k k ≠ 0)
    {y : P → ι → ℝ} {y' : P →L[ℝ] (ι → ℝ)} {q₀ : P}
    (hR : HasFDerivAt (fun z : P × (ι → ℝ) => R z.1 z.2) (A.coprod (jacL J)) (q₀, y q₀))
    (hy : HasFDerivAt y y' q₀) (hroot : ∀ᶠ q in nhds q₀, R q (y q) = 0) (dq : P) :
    ((implSolveLinear J true (fun _ => 0, fun k => -A dq k)).1 = y' dq ↔
      ∀ k, ∑ l ∈ Finset.univ.erase k, J k l * y' dq l = 0) ∧
    ((∀ g : ι → ℝ, ∑ k, (implSolveLinear J false (g, fun _ => 0)).2 k * -A dq k = ∑ k, g k * y' dq k) ↔
      ∀ k, ∑ l ∈ Finset.univ.erase k, J k l * y' dq l = 0) := by
  have hs := solve_fwd hJ hR hy hroot dq
  have h1 : (implSolveLinear J true (fun _ => 0, fun k => -A dq k)).1 = y' dq ↔
      ∀ k, ∑ l ∈ Finset.univ.erase k, J k l * y' dq l = 0 := by
    rw [funext_iff]
    refine forall_congr' fun k => ?_
    rw [hs k]
    have := hJ k
    constructor
    · intro h
      have h' : 1 / J k k * ∑ l ∈ Finset.univ.erase k, J k l * y' dq l = 0 := by linarith
      exact (mul_eq_zero.1 h').resolve_left (one_div_ne_zero this)
    · intro h
      rw [h, mul_zero, add_zero]
  refine ⟨h1, ?_⟩
  rw [← h1]
  have hrev : ∀ g : ι → ℝ, ∑ k, (implSolveLinear J false (g, fun _ => 0)).2 k * -A dq k
      = ∑ k, g k * (implSolveLinear J true (fun _ => 0, fun k => -A dq k)).1 k := by
    intro g
    refine Finset.sum_congr rfl fun k _ => ?_
    simp [implSolveLinear]
    ring
  simp only [hrev]
  constructor
  · intro h
    funext k
    have h' := h fun j => if j = k then 1 else 0
    rw [Finset.sum_eq_single k (fun j _ hj => by rw [if_neg hj, zero_mul]) (fun h => absurd (Finset.mem_univ k) h),
      Finset.sum_eq_single k (fun j _ hj => by rw [if_neg hj, zero_mul]) (fun h => absurd (Finset.mem_univ k) h),
      if_pos rfl, one_mul, one_mul] at h'
    exact h'
  · intro h g
    rw [h]

/-- **C61**: with a diagonal Jacobian all derivatives of the solution are right, in both modes. -/
theorem c61_totals_partial {R : P → (ι → ℝ) → (ι → ℝ)} {A : P →L[ℝ] (ι → ℝ)} {J : ι → ι → ℝ} (hJ : ∀ k, J k k ≠ 0)
    (hdiag : ∀ k l, k ≠ l → J k l = 0) {y : P → ι → ℝ} {y' : P →L[ℝ] (ι → ℝ)} {q₀ : P}
    (hR : HasFDerivAt (fun z : P × (ι → ℝ) => R z.1 z.2) (A.coprod (jacL J)) (q₀, y q₀))
    (hy : HasFDerivAt y y' q₀) (hroot : ∀ᶠ q in nhds q₀, R q (y q) = 0) (dq : P) :
    (implSolveLinear J true (fun _ => 0, fun k => -A dq k)).1 = y' dq ∧
    ∀ g : ι → ℝ, ∑ k, (implSolveLinear J false (g, fun _ => 0)).2 k * -A dq k = ∑ k, g k * y' dq k := by
  have h : ∀ k, ∑ l ∈ Finset.univ.erase k, J k l * y' dq l = 0 := fun k =>
    Finset.sum_eq_zero fun l hl => by rw [hdiag k l (Finset.ne_of_mem_erase hl).symm, zero_mul]
  obtain ⟨h1, h2⟩ := c61_totals_iff hJ hR hy hroot dq
  exact ⟨h1.2 h, h2.2 h⟩

end

/-- **C61, refuted.** For all `a ≠ 0`, `b ≠ 0`: two outputs with the residuals `y0 - a * q` and `b * y0 + y1`, solved by
`y0 = a * q`, `y1 = -(b * a * q)`. The derivative of `y1` by `q` is `-(b * a)`; `solve_linear` finds zero. -/
theorem c61_totals_violated (a b q₀ : ℝ) (ha : a ≠ 0) (hb : b ≠ 0) :
    let R : ℝ → (Fin 2 → ℝ) → Fin 2 → ℝ := fun q y => ![y 0 - a * q, b * y 0 + y 1]
    let J : Fin 2 → Fin 2 → ℝ := ![![1, 0], ![b, 1]]
    let A : ℝ →L[ℝ] (Fin 2 → ℝ) := ContinuousLinearMap.pi ![(-a) • ContinuousLinearMap.id ℝ ℝ, 0]
    let y : ℝ → Fin 2 → ℝ := fun q => ![a * q, -(b * a * q)]
    let y' : ℝ →L[ℝ] (Fin 2 → ℝ) := ContinuousLinearMap.pi ![a • ContinuousLinearMap.id ℝ ℝ, (-(b * a)) • ContinuousLinearMap.id ℝ ℝ]
    (∀ k, J k k ≠ 0) ∧ HasFDerivAt (fun z : ℝ × (Fin 2 → ℝ) => R z.1 z.2) (A.coprod (jacL J)) (q₀, y q₀) ∧
    HasFDerivAt y y' q₀ ∧ (∀ q, R q (y q) = 0) ∧
    (implSolveLinear J true (fun _ => 0, fun k => -A 1 k)).1 1 = 0 ∧ y' 1 1 ≠ 0 := by
  intro R J A y y'
  have hlin : ∀ z : ℝ × (Fin 2 → ℝ), (A.coprod (jacL J)) z = R z.1 z.2 := by
    rintro ⟨q, v⟩
    funext k
    fin_cases k <;> simp [A, J, R, jacL, Fin.sum_univ_two] <;> ring
  have hlin' : ∀ q : ℝ, y' q = y q := by
    intro q
    funext k
    fin_cases k <;> simp [y, y']
  refine ⟨?_, ?_, ?_, ?_, ?_, ?_⟩
  · intro k
    fin_cases k <;> simp [J]
  · exact (A.coprod (jacL J)).hasFDerivAt.congr_of_eventuallyEq (Filter.Eventually.of_forall fun z => (hlin z).symm)
  · exact y'.hasFDerivAt.congr_of_eventuallyEq (Filter.Eventually.of_forall fun q => (hlin' q).symm)
  · intro q
    funext k
    fin_cases k <;> simp [R, y]
    ring
  · simp [implSolveLinear, A]
  · simp [y', ha, hb]

/-- The hypotheses of `c61_totals_partial` hold for the residual `2 * y - q`, solved by `q / 2`. -/
noncomputable example (q₀ dq : ℝ) :=
  c61_totals_partial (ι := Fin 1) (P := ℝ) (R := fun q y k => 2 * y k - q)
    (A := ContinuousLinearMap.pi fun _ => -ContinuousLinearMap.id ℝ ℝ) (J := fun _ _ => 2) (fun _ => two_ne_zero)
    (fun k l h => absurd (Subsingleton.elim k l) h) (y := fun q _ => q / 2)
    (y' := ContinuousLinearMap.pi fun _ => (1 / 2 : ℝ) • ContinuousLinearMap.id ℝ ℝ) (q₀ := q₀)
    (((ContinuousLinearMap.pi fun _ => -ContinuousLinearMap.id ℝ ℝ : ℝ →L[ℝ] (Fin 1 → ℝ)).coprod
      (jacL fun _ _ => 2)).hasFDerivAt.congr_of_eventuallyEq (Filter.Eventually.of_forall fun z => by
        funext k
        obtain rfl : k = 0 := Subsingleton.elim _ _
        simp [jacL]
        ring))
    ((ContinuousLinearMap.pi fun _ => (1 / 2 : ℝ) • ContinuousLinearMap.id ℝ ℝ :
      ℝ →L[ℝ] (Fin 1 → ℝ)).hasFDerivAt.congr_of_eventuallyEq (Filter.Eventually.of_forall fun q => by
        funext k
        simp
        ring))
    (Filter.Eventually.of_forall fun q => by funext k; simp; ring) dq

end OM
