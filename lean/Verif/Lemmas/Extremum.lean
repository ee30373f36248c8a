import Verif.Model.Extremum
import Verif.Lemmas.Reduce
import Verif.Lemmas.Arith
import Mathlib.Analysis.SpecialFunctions.Log.Deriv
import Mathlib.Analysis.SpecialFunctions.ExpDeriv

namespace OM
open Spec

/-! ## The Kreisselmeier-Steinhauser function -/

/-- `m + 1/ρ log Σ exp (ρ (g - m))` -/
noncomputable def ks (rho m : ℝ) (gs : List ℝ) : ℝ :=
  m + 1 / rho * Real.log (gs.map fun g => Real.exp (rho * (g - m))).sum

theorem sum_exp_pos {ι : Type} {l : List ι} (hl : l ≠ []) (f : ι → ℝ) :
    0 < (l.map fun a => Real.exp (f a)).sum := by
  apply List.sum_pos
  · intro x hx
    obtain ⟨a, _, rfl⟩ := List.mem_map.1 hx
    exact Real.exp_pos _
  · simpa using hl

theorem sum_exp_shift (rho m : ℝ) (gs : List ℝ) :
    (gs.map fun g => Real.exp (rho * (g - m))).sum =
      Real.exp (-(rho * m)) * (gs.map fun g => Real.exp (rho * g)).sum := by
  rw [← List.sum_map_mul_left]
  congr 1
  apply List.map_congr_left
  intro g _
  rw [← Real.exp_add]
  congr 1
  ring

theorem ks_shift {rho : ℝ} (hr : rho ≠ 0) (m : ℝ) {gs : List ℝ} (hg : gs ≠ []) :
    ks rho m gs = 1 / rho * Real.log (gs.map fun g => Real.exp (rho * g)).sum := by
  unfold ks
  rw [sum_exp_shift, Real.log_mul (Real.exp_pos _).ne' (sum_exp_pos hg _).ne', Real.log_exp]
  field_simp
  ring

theorem le_ks {rho : ℝ} (hr : 0 < rho) (m : ℝ) {gs : List ℝ} {g : ℝ} (hg : g ∈ gs) : g ≤ ks rho m gs := by
  have hne : gs ≠ [] := List.ne_nil_of_mem hg
  rw [ks_shift hr.ne' m hne, one_div, ← div_eq_inv_mul, le_div_iff₀ hr]
  rw [Real.le_log_iff_exp_le (sum_exp_pos hne _), mul_comm]
  have : Real.exp (rho * g) ∈ gs.map fun g => Real.exp (rho * g) := List.mem_map.2 ⟨g, hg, rfl⟩
  refine List.single_le_sum ?_ _ this
  intro x hx
  obtain ⟨a, _, rfl⟩ := List.mem_map.1 hx
  exact (Real.exp_pos _).le

theorem ks_le {rho : ℝ} (hr : 0 < rho) (m : ℝ) {gs : List ℝ} (hne : gs ≠ []) {M : ℝ}
    (hM : ∀ g ∈ gs, g ≤ M) : ks rho m gs ≤ M + Real.log gs.length / rho := by
  rw [ks_shift hr.ne' m hne, one_div, ← div_eq_inv_mul, div_le_iff₀ hr, add_mul, div_mul_cancel₀ _ hr.ne']
  have hlen : (0 : ℝ) < gs.length := by
    have := List.length_pos_iff.2 hne
    exact_mod_cast this
  have h1 : (gs.map fun g => Real.exp (rho * g)).sum ≤ gs.length * Real.exp (rho * M) := by
    have : (gs.map fun g => Real.exp (rho * g)).sum ≤ (gs.map fun _ => Real.exp (rho * M)).sum := by
      apply List.sum_le_sum
      intro g hg
      exact Real.exp_le_exp.2 (mul_le_mul_of_nonneg_left (hM g hg) hr.le)
    simpa using this
  calc Real.log (gs.map fun g => Real.exp (rho * g)).sum
      ≤ Real.log (gs.length * Real.exp (rho * M)) := Real.log_le_log (sum_exp_pos hne _) h1
    _ = M * rho + Real.log gs.length := by
      rw [Real.log_mul hlen.ne' (Real.exp_pos _).ne', Real.log_exp]
      ring

/-- The derivative of the function, for arguments that are differentiable functions. The shift `m` may
depend on the point in any way. -/
theorem hasFDerivAt_ks {E : Type} [NormedAddCommGroup E] [NormedSpace ℝ E] {ι : Type} {l : List ι}
    (hl : l ≠ []) {rho : ℝ} (hr : rho ≠ 0) (lower : Bool) {u : ι → E → ℝ} {U : ι → E →L[ℝ] ℝ} {x : E}
    (hu : ∀ a ∈ l, HasFDerivAt (u a) (U a) x) (m : E → ℝ) :
    ∃ L : E →L[ℝ] ℝ,
      HasFDerivAt (fun y => signed lower (ks rho (m y) (l.map fun a => signed lower (u a y)))) L x ∧
      ∀ v, L v = (l.map fun a => (Real.exp (rho * (signed lower (u a x) - m x)) /
        (l.map fun b => Real.exp (rho * (signed lower (u b x) - m x))).sum) * U a v).sum := by
  obtain ⟨s, hs, hss⟩ : ∃ s : ℝ, (∀ z, signed lower z = s * z) ∧ s * s = 1 := by
    cases lower
    · exact ⟨1, fun z => by simp [signed], by norm_num⟩
    · exact ⟨-1, fun z => by simp [signed], by norm_num⟩
  set n := l.length
  have hpos : ∀ y, 0 < ∑ k : Fin n, Real.exp (rho * (s * u l[k.1] y)) := by
    intro y
    have : 0 < (l.map fun a => Real.exp (rho * (s * u a y))).sum := sum_exp_pos hl _
    rwa [← Fin.sum_univ_fun_getElem] at this
  have hexp : ∀ k : Fin n, HasFDerivAt (fun y => Real.exp (rho * (s * u l[k.1] y)))
      (Real.exp (rho * (s * u l[k.1] x)) • (rho • (s • U l[k.1]))) x := by
    intro k
    exact (((hu l[k.1] (List.getElem_mem _)).const_mul s).const_mul rho).exp
  have hsum := HasFDerivAt.fun_sum (u := Finset.univ) fun k _ => hexp k
  have hfin := ((hsum.log (hpos x).ne').const_mul (1 / rho)).const_mul s
  refine ⟨_, hfin.congr_of_eventuallyEq (Filter.Eventually.of_forall fun y => ?_), ?_⟩
  · have hne : (l.map fun a => signed lower (u a y)) ≠ [] := by simpa using hl
    beta_reduce
    rw [ks_shift hr (m y) hne]
    simp only [hs]
    rw [List.map_map, Fin.sum_univ_fun_getElem l fun a => Real.exp (rho * (s * u a y))]
    rfl
  · intro v
    simp only [hs]
    have hden : (l.map fun b => Real.exp (rho * (s * u b x - m x))).sum =
        Real.exp (-(rho * m x)) * ∑ k : Fin n, Real.exp (rho * (s * u l[k.1] x)) := by
      rw [Fin.sum_univ_fun_getElem l fun a => Real.exp (rho * (s * u a x))]
      have := sum_exp_shift rho (m x) (l.map fun b => s * u b x)
      rw [List.map_map, List.map_map] at this
      exact this
    rw [hden, ← Fin.sum_univ_fun_getElem]
    have hp' := (hpos x).ne'
    generalize ∑ k : Fin n, Real.exp (rho * (s * u l[k.1] x)) = D at hp'
    simp only [smul_apply, sum_apply, smul_eq_mul, Finset.mul_sum]
    apply Finset.sum_congr rfl
    intro k _
    have he : Real.exp (rho * (s * u l[k.1] x - m x)) =
        Real.exp (-(rho * m x)) * Real.exp (rho * (s * u l[k.1] x)) := by
      rw [← Real.exp_add]; congr 1; ring
    rw [he, mul_div_mul_left _ _ (Real.exp_pos _).ne']
    field_simp
    rw [show s ^ 2 = 1 by rw [sq]; exact hss]
    ring

/-- The weights add up to one. -/
theorem weights_sum {ι : Type} {l : List ι} (hl : l ≠ []) (f : ι → ℝ) :
    (l.map fun a => Real.exp (f a) / (l.map fun b => Real.exp (f b)).sum).sum = 1 := by
  have := (sum_exp_pos hl f).ne'
  simp only [div_eq_mul_inv]
  rw [List.sum_map_mul_right, mul_inv_cancel₀ this]

/-! ## Maxima -/

theorem le_foldl_max {ι : Type} (l : List ι) (f : ι → ℝ) (a : ℝ) :
    a ≤ l.foldl (fun m b => max m (f b)) a ∧ ∀ b ∈ l, f b ≤ l.foldl (fun m b => max m (f b)) a := by
  induction l generalizing a with
  | nil => simp
  | cons b l ih =>
    obtain ⟨h1, h2⟩ := ih (max a (f b))
    refine ⟨(le_max_left _ _).trans h1, ?_⟩
    intro c hc
    rcases List.mem_cons.1 hc with rfl | hc
    · exact (le_max_right _ _).trans h1
    · exact h2 c hc

/-! ## Reductions of one input -/

theorem reduce_exact {name : String} {N M : Nat} {row : Nat → Nat} {d : Nat → ℝ}
    {compute : (String → Nat → ℝ) → Nat → ℝ} {partials : String → Coo} {inp : String → Nat → ℝ}
    (hrow : ∀ k < N, row k < M)
    (hp : partials name = ⟨(List.range N).map row, List.range N, (List.range N).map d⟩)
    (hF : ∀ r < M, ∃ L : (Slot [(name, N)] → ℝ) →L[ℝ] ℝ,
      HasFDerivAt (fun y => compute (inputsOf [(name, N)] y) r) L (slots [(name, N)] inp) ∧
      ∀ v, L v = (((List.range N).filter fun k => row k = r).map fun k =>
        d k * inputsOf [(name, N)] v name k).sum) :
    ExactPartials [(name, N)] M compute partials inp := by
  choose L h1 h2 using fun r : Fin M => hF r r.2
  refine exactPartials_of (by simp) ?_ ?_ L h1 ?_
  · intro p h
    rw [List.mem_singleton.1 h, hp]; simp
  · intro p h
    rw [List.mem_singleton.1 h, hp]
    intro r hr
    obtain ⟨k, hk, rfl⟩ := List.mem_map.1 hr
    exact hrow k (List.mem_range.1 hk)
  · intro r v
    rw [h2]
    simp only [List.map_cons, List.map_nil, List.sum_cons, List.sum_nil, add_zero, hp, Coo.apply]
    rw [cooApply_cols]

theorem entry_nonneg {s : Coo} (h : ∀ v ∈ s.vals, 0 ≤ v) (i j : Nat) : 0 ≤ entry s i j := by
  unfold entry cooEntry
  apply List.sum_nonneg
  intro x hx
  obtain ⟨p, hp, rfl⟩ := List.mem_map.1 hx
  split
  · exact h _ (List.of_mem_zip (List.of_mem_zip hp).2).2
  · exact le_rfl

theorem npDelete_single_aux {α : Type} (l : List α) (a k : Nat) (h : k ≤ a) :
    dropMask (axisMask [a] k l.length) l = l.take (a - k) ++ l.drop (a - k + 1) := by
  induction l generalizing k with
  | nil => simp [axisMask, dropMask]
  | cons x l ih =>
    simp only [List.length_cons, axisMask, dropMask]
    by_cases hk : k = a
    · subst hk
      rw [axisMask_none (k + 1) l.length (by simp)]
      have : ∀ (n : Nat) (m : List α), n = m.length → dropMask (List.replicate n false) m = m := by
        intro n m
        induction m generalizing n with
        | nil => intro h; subst h; rfl
        | cons y m ih => intro h; subst h; simp [List.replicate_succ, dropMask, ih _ rfl]
      simp [this _ l rfl]
    · rw [if_neg (by simp [hk]), ih (k + 1) (by omega)]
      have : a - k = (a - (k + 1)) + 1 := by omega
      rw [this]
      simp

theorem npDelete_single {α : Type} (l : List α) (a : Nat) :
    npDelete [a] l = l.take a ++ l.drop (a + 1) := by
  rw [npDelete_eq, npDelete_single_aux l a 0 (Nat.zero_le _)]
  simp

end OM
