import Verif.Model.Unary
import Verif.Lemmas.Arith
import Mathlib.Analysis.SpecialFunctions.Trigonometric.ArctanDeriv
import Mathlib.Analysis.SpecialFunctions.Trigonometric.InverseDeriv
import Mathlib.Analysis.SpecialFunctions.Trigonometric.DerivHyp
import Mathlib.Analysis.SpecialFunctions.Trigonometric.Deriv
import Mathlib.Analysis.SpecialFunctions.Log.Deriv
import Mathlib.Analysis.SpecialFunctions.ExpDeriv
import Mathlib.Analysis.Calculus.Deriv.Inv
import Mathlib.Analysis.Real.Pi.Bounds

/-! # Elementwise functions (C30) -/

namespace OM
open Spec

theorem elementwise_exact {name : String} {N : Nat} {compute : (String → Nat → ℝ) → Nat → ℝ}
    {partials : String → Coo} {inp : String → Nat → ℝ} {f : ℝ → ℝ} {d : Nat → ℝ}
    (hc : ∀ inp, ∀ i < N, compute inp i = f (inp name i))
    (hp : partials name = ⟨List.range N, List.range N, (List.range N).map d⟩)
    (hd : ∀ i < N, HasDerivAt f (d i) (inp name i)) :
    ExactPartials [(name, N)] N compute partials inp := by
  have hn : ([(name, N)].map Prod.fst).Nodup := by simp
  refine exactPartials_of hn ?_ ?_ (fun i => d i • inputL [(name, N)] name i) ?_ ?_
  · intro p h
    rw [List.mem_singleton.1 h, hp]; simp
  · intro p h
    rw [List.mem_singleton.1 h, hp]; simp
  · intro i
    have h1 := hd i i.2
    rw [← inputsOf_slots hn inp (List.mem_singleton.2 rfl) i.2] at h1
    refine (h1.comp_hasFDerivAt (slots [(name, N)] inp)
      (hasFDerivAt_input [(name, N)] name i (slots [(name, N)] inp))).congr_of_eventuallyEq
      (Filter.Eventually.of_forall fun y => ?_)
    exact hc _ i i.2
  · intro i v
    simp only [List.map_cons, List.map_nil, List.sum_cons, List.sum_nil, add_zero, hp, Coo.apply]
    rw [cooApply_diag (by simp) _ i.2]
    simp [List.getD_eq_getElem?_getD, inputL_apply]

/-- The domain of each function: where it is defined and differentiable. -/
def Unary.dom : Unary → ℝ → Prop
  | .tan, x | .sec, x => Real.cos x ≠ 0
  | .cosec, x | .cotan, x => Real.sin x ≠ 0
  | .arcsin, x | .arccos, x => -1 < x ∧ x < 1
  | .log, x | .log10, x => 0 < x
  | .cosech, x | .cotanh, x => x ≠ 0
  | _, _ => True

/-- The named mathematical function. -/
noncomputable def Unary.named : Unary → ℝ → ℝ
  | .sin => Real.sin
  | .cos => Real.cos
  | .tan => fun x => Real.sin x / Real.cos x
  | .arcsin => Real.arcsin
  | .arccos => Real.arccos
  | .arctan => Real.arctan
  | .sinh => Real.sinh
  | .cosh => Real.cosh
  | .tanh => fun x => Real.sinh x / Real.cosh x
  | .exp => Real.exp
  | .log => Real.log
  | .log10 => fun x => Real.log x / Real.log 10
  | .sec => fun x => (Real.cos x)⁻¹
  | .cosec => fun x => (Real.sin x)⁻¹
  | .cotan => fun x => Real.cos x / Real.sin x
  | .sech => fun x => (Real.cosh x)⁻¹
  | .cosech => fun x => (Real.sinh x)⁻¹
  | .cotanh => fun x => Real.cosh x / Real.sinh x

/-- **C30**, values. -/
theorem c30_values (u : Unary) (name : String) (inp : String → Nat → ℝ) (i : Nat) :
    u.compute name inp i = u.named (inp name i) := by
  cases u <;>
    simp [Unary.compute, Unary.f, Unary.named, Real.tan_eq_sin_div_cos, Real.tanh_eq_sinh_div_cosh,
      Real.logb]

theorem unary_hasDerivAt (u : Unary) {x : ℝ} (h : u.dom x) : HasDerivAt u.f (u.df x) x := by
  have hcosh : Real.cosh x ≠ 0 := (Real.cosh_pos x).ne'
  cases u with
  | sin => exact Real.hasDerivAt_sin x
  | cos => exact Real.hasDerivAt_cos x
  | tan => exact Real.hasDerivAt_tan h
  | arcsin => exact Real.hasDerivAt_arcsin h.1.ne' h.2.ne
  | arccos =>
    have := Real.hasDerivAt_arccos h.1.ne' h.2.ne
    simp only [Unary.df]
    rw [neg_div]
    exact this
  | arctan => exact Real.hasDerivAt_arctan x
  | sinh => exact Real.hasDerivAt_sinh x
  | cosh => exact Real.hasDerivAt_cosh x
  | tanh =>
    have h1 := (Real.hasDerivAt_sinh x).div (Real.hasDerivAt_cosh x) hcosh
    have h2 : Unary.tanh.f = fun x => Real.sinh x / Real.cosh x := by
      funext y; simp [Unary.f, Real.tanh_eq_sinh_div_cosh]
    rw [h2]
    refine h1.congr_deriv ?_
    simp only [Unary.df, Real.tanh_eq_sinh_div_cosh]
    field_simp
  | exp => exact Real.hasDerivAt_exp x
  | log =>
    have := Real.hasDerivAt_log (ne_of_gt h)
    simp only [Unary.df, one_div]
    exact this
  | log10 =>
    have h1 := (Real.hasDerivAt_log (ne_of_gt h)).div_const (Real.log 10)
    have h2 : Unary.log10.f = fun x => Real.log x / Real.log 10 := by
      funext y; simp [Unary.f, Real.logb]
    rw [h2]
    refine h1.congr_deriv ?_
    simp only [Unary.df, one_div, mul_inv]
    rw [mul_comm]; rfl
  | sec =>
    have h0 : Real.cos x ≠ 0 := h
    have h1 := (Real.hasDerivAt_cos x).inv h0
    have h2 : Unary.sec.f = fun x => (Real.cos x)⁻¹ := by funext y; simp [Unary.f]
    rw [h2]
    refine h1.congr_deriv ?_
    simp only [Unary.df]
    field_simp
  | cosec =>
    have h0 : Real.sin x ≠ 0 := h
    have h1 := (Real.hasDerivAt_sin x).inv h0
    have h2 : Unary.cosec.f = fun x => (Real.sin x)⁻¹ := by funext y; simp [Unary.f]
    rw [h2]
    refine h1.congr_deriv ?_
    simp only [Unary.df]
    field_simp
  | cotan =>
    have h0 : Real.sin x ≠ 0 := h
    have h1 := (Real.hasDerivAt_cos x).div (Real.hasDerivAt_sin x) h0
    have h2 : Unary.cotan.f = fun x => Real.cos x / Real.sin x := by
      funext y; simp [Unary.f, Real.tan_eq_sin_div_cos]
    rw [h2]
    refine h1.congr_deriv ?_
    simp only [Unary.df]
    have := Real.sin_sq_add_cos_sq x
    field_simp
    linarith
  | sech =>
    have h1 := (Real.hasDerivAt_cosh x).inv hcosh
    have h2 : Unary.sech.f = fun x => (Real.cosh x)⁻¹ := by funext y; simp [Unary.f]
    rw [h2]
    refine h1.congr_deriv ?_
    simp only [Unary.df, Real.tanh_eq_sinh_div_cosh]
    field_simp
  | cosech =>
    have h0 : Real.sinh x ≠ 0 := by simpa using (show x ≠ 0 from h)
    have h1 := (Real.hasDerivAt_sinh x).inv h0
    have h2 : Unary.cosech.f = fun x => (Real.sinh x)⁻¹ := by funext y; simp [Unary.f]
    rw [h2]
    refine h1.congr_deriv ?_
    simp only [Unary.df, Real.tanh_eq_sinh_div_cosh]
    field_simp
  | cotanh =>
    have h0 : Real.sinh x ≠ 0 := by simpa using (show x ≠ 0 from h)
    have h1 := (Real.hasDerivAt_cosh x).div (Real.hasDerivAt_sinh x) h0
    have h2 : Unary.cotanh.f = fun x => Real.cosh x / Real.sinh x := by
      funext y; simp [Unary.f, Real.tanh_eq_sinh_div_cosh]
    rw [h2]
    refine h1.congr_deriv ?_
    simp only [Unary.df, Real.tanh_eq_sinh_div_cosh]
    field_simp

/-- **C30** (partial), derivatives: whenever the derivatives are returned, they are exact, for every
function and shape; they are returned except for arcsin and sech of arrays that are not of rank one (see
`c30_two_functions_fail`). -/
theorem c30_partials_partial (u : Unary) (name : String) (shape : List Nat)
    (inp : String → Nat → ℝ) (hdom : ∀ i < prodShape shape, u.dom (inp name i)) :
    (u ≠ .arcsin → u ≠ .sech → ∃ p, u.partials name shape inp = .ok p) ∧
    (shape.length = 1 → ∃ p, u.partials name shape inp = .ok p) ∧
    ∀ p, u.partials name shape inp = .ok p →
      ExactPartials [(name, prodShape shape)] (prodShape shape) (u.compute name) (fun _ => p) inp := by
  refine ⟨?_, ?_, ?_⟩
  · intro h1 h2
    refine ⟨_, if_pos ?_⟩
    cases u <;> simp_all [Unary.flattens]
  · intro h
    exact ⟨_, if_pos (by simp [h])⟩
  · intro p hp
    unfold Unary.partials at hp
    split at hp
    · have hp' := Except.ok.inj hp
      subst hp'
      refine elementwise_exact (f := u.f) (d := fun i => u.df (inp name i)) ?_ rfl ?_
      · intro inp i _; rfl
      · intro i hi
        exact unary_hasDerivAt u (hdom i hi)
    · cases hp

/-- The code violates C30: the derivatives of arcsin and of sech cannot be evaluated for arrays of rank
two or more. -/
theorem c30_two_functions_fail (u : Unary) (hu : u = .arcsin ∨ u = .sech) (name : String) (n m : Nat)
    (ns : List Nat) (inp : String → Nat → ℝ) :
    u.partials name (n :: m :: ns) inp = .error .valueError := by
  rcases hu with rfl | rfl <;> simp [Unary.partials, Unary.flattens]

/-- A point in the domain of all 18 functions. -/
example : ∀ u : Unary, u.dom (1 / 2) := by
  have hpi := Real.pi_gt_three
  intro u
  cases u with
  | tan | sec => exact (Real.cos_pos_of_mem_Ioo ⟨by linarith, by linarith⟩).ne'
  | cosec | cotan => exact (Real.sin_pos_of_pos_of_lt_pi (by norm_num) (by linarith)).ne'
  | arcsin | arccos => exact ⟨by norm_num, by norm_num⟩
  | log | log10 => show (0 : ℝ) < 1 / 2; norm_num
  | cosech | cotanh => show (1 / 2 : ℝ) ≠ 0; norm_num
  | _ => trivial

end OM
