import Verif.Props.Extremum
import Mathlib.Analysis.MeanInequalitiesPow
import Mathlib.Analysis.MeanInequalities
import Mathlib.Analysis.SpecialFunctions.Pow.Deriv
import Mathlib.Analysis.Calculus.FDeriv.Pow
import Mathlib.Analysis.Calculus.Deriv.Pow
import Verif.Lemmas.AxisNames

/-! # The p-norm (C34) -/

namespace OM
open Spec

/-- The p-norm of a list of numbers. -/
noncomputable def Spec.pnorm (p : Nat) (l : List ℝ) : ℝ :=
  (l.map fun a => |a| ^ p).sum ^ (1 / (p : ℝ))

theorem npNorm_eq (p : Nat) (l : List ℝ) : npNorm p l = pnorm p l := by
  unfold npNorm pnorm
  split
  · rename_i h
    subst h
    rw [Real.sqrt_eq_rpow]
    simp
  · rfl

/-- The sum of the p-th powers. -/
noncomputable def Pnorm.powers (c : Pnorm) (inp : String → Nat → ℝ) (r : Nat) : ℝ :=
  ((c.group r).map fun k => inp c.name k ^ c.p).sum

theorem powers_nonneg {c : Pnorm} (he : Even c.p) (inp : String → Nat → ℝ) (r : Nat) :
    0 ≤ c.powers inp r := by
  apply List.sum_nonneg
  intro x hx
  obtain ⟨k, _, rfl⟩ := List.mem_map.1 hx
  exact he.pow_nonneg _

theorem pnorm_result {c : Pnorm} (he : Even c.p) (inp : String → Nat → ℝ) {r : Nat}
    (hr : r < prodShape c.outShape) : c.result inp r = c.powers inp r ^ (1 / (c.p : ℝ)) := by
  unfold Pnorm.result Pnorm.powers
  cases hax : c.axes with
  | some axes =>
    simp only
    unfold npSum Pnorm.group Pnorm.row redGroup
    rw [hax]
    rfl
  | none =>
    have hz : r = 0 := by simpa [Pnorm.outShape, hax, prodShape] using hr
    subst hz
    have hg : c.group 0 = List.range c.size := by
      simp [Pnorm.group, Pnorm.row, hax]
    simp only
    rw [npNorm_eq, hg, pnorm, List.map_map]
    congr 2
    apply List.map_congr_left
    intro k _
    simp [he.pow_abs]

/-- The values that are reduced to one output. -/
def Pnorm.values (c : Pnorm) (inp : String → Nat → ℝ) (j : List Nat) : List ℝ :=
  match c.axes with
  | some axes => fibreValues c.shape axes (inp c.name) j
  | none => (List.range c.size).map (inp c.name)

theorem pnorm_group_map {c : Pnorm} (inp : String → Nat → ℝ) {j : List Nat} (hj : InBounds c.outShape j) :
    (c.group (ravel c.outShape j)).map (inp c.name) = c.values inp j := by
  unfold Pnorm.values
  cases hax : c.axes with
  | some axes =>
    have ho : c.outShape = npDelete axes c.shape := by rw [Pnorm.outShape, hax]
    rw [ho] at hj ⊢
    simp only
    rw [← map_redGroup hj]
    unfold Pnorm.group Pnorm.row redGroup
    rw [hax]
    rfl
  | none =>
    have ho : c.outShape = [1] := by rw [Pnorm.outShape, hax]
    have hz : ravel c.outShape j = 0 := by
      rw [ho] at hj ⊢
      have := ravel_lt hj
      simpa [prodShape] using this
    rw [hz]
    simp [Pnorm.group, Pnorm.row, hax]

theorem pnorm_row_lt (c : Pnorm) {k : Nat} (h : k < c.size) : c.row k < prodShape c.outShape := by
  unfold Pnorm.row Pnorm.outShape
  cases hax : c.axes with
  | some a => exact redRow_lt h
  | none => simp [prodShape]

/-- **C34**, values: the component computes the p-norm of the values it reduces. -/
theorem c34_value {c : Pnorm} (he : Even c.p) (inp : String → Nat → ℝ) {j : List Nat}
    (hj : InBounds c.outShape j) :
    c.result inp (ravel c.outShape j) = pnorm c.p (c.values inp j) := by
  rw [pnorm_result he inp (ravel_lt hj), pnorm, ← pnorm_group_map inp hj, List.map_map]
  unfold Pnorm.powers
  congr 2
  apply List.map_congr_left
  intro k _
  simp [he.pow_abs]

/-- **C34**, derivatives: exact wherever no norm is zero, if computed at the same inputs. -/
theorem c34_exact {c : Pnorm} (he : Even c.p) (h0 : 0 < c.p) (inp : String → Nat → ℝ)
    (hnz : ∀ r < prodShape c.outShape, c.result inp r ≠ 0) :
    ExactPartials [(c.name, c.size)] (prodShape c.outShape) c.result
      (c.coo (c.deriv (c.result inp) inp)) inp := by
  have hn : ([(c.name, c.size)].map Prod.fst).Nodup := by simp
  have hinp : ∀ k < c.size, inputsOf [(c.name, c.size)] (slots [(c.name, c.size)] inp) c.name k =
      inp c.name k := fun k hk => inputsOf_slots hn inp (List.mem_singleton.2 rfl) hk
  have hlt : ∀ r, ∀ k ∈ c.group r, k < c.size := fun r k hk => List.mem_range.1 (List.mem_filter.1 hk).1
  refine reduce_exact (row := c.row) (d := c.deriv (c.result inp) inp) (fun k hk => pnorm_row_lt c hk)
    (by simp [Pnorm.coo]) fun r hrr => ?_
  set ins := [(c.name, c.size)] with hins
  have hp0 : (c.p : ℝ) ≠ 0 := by exact_mod_cast h0.ne'
  have hpow : 0 < c.powers inp r := by
    rcases (powers_nonneg he inp r).lt_or_eq with h | h
    · exact h
    · exfalso
      apply hnz r hrr
      rw [pnorm_result he inp hrr, ← h, Real.zero_rpow]
      positivity
  have hpeq : c.powers (inputsOf ins (slots ins inp)) r = c.powers inp r := by
    unfold Pnorm.powers
    congr 1
    exact List.map_congr_left fun k hk => by rw [hinp k (hlt r k hk)]
  have hterm : ∀ i : Fin (c.group r).length, HasFDerivAt
      (fun y => inputsOf ins y c.name (c.group r)[i.1] ^ c.p)
      ((c.p * inp c.name (c.group r)[i.1] ^ (c.p - 1)) • inputL ins c.name (c.group r)[i.1])
      (slots ins inp) := by
    intro i
    have h1 := (hasFDerivAt_input ins c.name (c.group r)[i.1] (slots ins inp)).pow c.p
    rw [hinp _ (hlt r _ (List.getElem_mem _))] at h1
    refine h1.congr_fderiv ?_
    ext v
    simp
  have hS : HasFDerivAt (fun y => c.powers (inputsOf ins y) r)
      (∑ i : Fin (c.group r).length,
        (c.p * inp c.name (c.group r)[i.1] ^ (c.p - 1)) • inputL ins c.name (c.group r)[i.1])
      (slots ins inp) := by
    refine (HasFDerivAt.fun_sum (u := Finset.univ) fun i _ => hterm i).congr_of_eventuallyEq
      (Filter.Eventually.of_forall fun y => ?_)
    simp only [Pnorm.powers]
    rw [← Fin.sum_univ_fun_getElem]
  have hroot := hS.rpow_const (p := 1 / (c.p : ℝ)) (Or.inl (by rw [hpeq]; exact hpow.ne'))
  refine ⟨_, hroot.congr_of_eventuallyEq (Filter.Eventually.of_forall fun y =>
    pnorm_result he _ hrr), ?_⟩
  intro v
  change _ = ((c.group r).map _).sum
  rw [← Fin.sum_univ_fun_getElem]
  simp only [smul_apply, sum_apply, smul_eq_mul, Finset.mul_sum]
  apply Finset.sum_congr rfl
  intro i _
  have hrow : c.row (c.group r)[i.1] = r := by
    simpa using (List.mem_filter.1 (List.getElem_mem (l := c.group r) i.2)).2
  rw [inputL_apply, hpeq, Pnorm.deriv, hrow, pnorm_result he inp hrr, ← Real.rpow_intCast,
    ← Real.rpow_mul hpow.le]
  have hexp : 1 / (c.p : ℝ) * ((1 - (c.p : ℤ) : ℤ) : ℝ) = 1 / (c.p : ℝ) - 1 := by
    push_cast
    field_simp
  rw [hexp]
  field_simp

/-- **C34**, the p-norm is a norm: it is not negative, zero for zero inputs only, homogeneous and satisfies
the triangle inequality. -/
theorem c34_norm {c : Pnorm} (he : Even c.p) (h0 : 0 < c.p) {r : Nat} (hr : r < prodShape c.outShape)
    (inp inp' : String → Nat → ℝ) (a : ℝ) :
    0 ≤ c.result inp r ∧
    (c.result inp r = 0 ↔ ∀ k < c.size, c.row k = r → inp c.name k = 0) ∧
    c.result (fun n k => a * inp n k) r = |a| * c.result inp r ∧
    c.result (fun n k => inp n k + inp' n k) r ≤ c.result inp r + c.result inp' r := by
  have hp0 : (c.p : ℝ) ≠ 0 := by exact_mod_cast h0.ne'
  have hp1 : (1 : ℝ) ≤ c.p := by exact_mod_cast h0
  refine ⟨?_, ?_, ?_, ?_⟩
  · rw [pnorm_result he inp hr]
    exact Real.rpow_nonneg (powers_nonneg he inp r) _
  · rw [pnorm_result he inp hr, Real.rpow_eq_zero (powers_nonneg he inp r) (by positivity)]
    unfold Pnorm.powers
    constructor
    · intro h k hk hrow
      have hmem : k ∈ c.group r := by simp [Pnorm.group, hk, hrow]
      have hz : inp c.name k ^ c.p ≤ 0 := by
        rw [← h]
        refine List.single_le_sum ?_ _ (List.mem_map.2 ⟨k, hmem, rfl⟩)
        intro x hx
        obtain ⟨k, _, rfl⟩ := List.mem_map.1 hx
        exact he.pow_nonneg _
      have := le_antisymm hz (he.pow_nonneg _)
      exact pow_eq_zero_iff h0.ne' |>.1 this
    · intro h
      apply List.sum_eq_zero
      intro x hx
      obtain ⟨k, hk, rfl⟩ := List.mem_map.1 hx
      simp only [Pnorm.group, List.mem_filter, List.mem_range, decide_eq_true_eq] at hk
      rw [h k hk.1 hk.2, zero_pow h0.ne']
  · rw [pnorm_result he _ hr, pnorm_result he _ hr]
    have : c.powers (fun n k => a * inp n k) r = |a| ^ c.p * c.powers inp r := by
      unfold Pnorm.powers
      rw [← List.sum_map_mul_left]
      congr 1
      apply List.map_congr_left
      intro k _
      rw [mul_pow, he.pow_abs]
    rw [this, Real.mul_rpow (by positivity) (powers_nonneg he inp r), ← Real.rpow_natCast,
      ← Real.rpow_mul (abs_nonneg a)]
    rw [mul_one_div_cancel hp0, Real.rpow_one]
  · rw [pnorm_result he _ hr, pnorm_result he _ hr, pnorm_result he _ hr]
    have hsum : ∀ x : String → Nat → ℝ, c.powers x r =
        ∑ i : Fin (c.group r).length, |x c.name (c.group r)[i.1]| ^ (c.p : ℝ) := by
      intro x
      unfold Pnorm.powers
      rw [← Fin.sum_univ_fun_getElem]
      apply Finset.sum_congr rfl
      intro i _
      rw [Real.rpow_natCast, he.pow_abs]
    rw [hsum, hsum, hsum]
    exact Real.Lp_add_le Finset.univ _ _ hp1

/-- **C34**, what is accepted: exactly the positive even `p`, and axes of the operand, each named once. -/
theorem c34_accepts (name : String) (shape : List Nat) (p : Int) (axes : Option (List Int)) :
    (∃ c, stdPnorm name shape p axes = .ok c) ↔
      0 < p ∧ 2 ∣ p ∧ ∀ ax, axes = some ax → ∃ l, NamesAxes shape.length ax l := by
  unfold stdPnorm
  constructor
  · rintro ⟨c, h⟩
    split at h
    · cases h
    · refine ⟨by omega, by omega, ?_⟩
      rintro ax rfl
      simp only at h
      cases ha : normAxes shape.length ax with
      | error e => rw [ha] at h; cases h
      | ok l => exact ⟨l, normAxes_iff.1 ha⟩
  · rintro ⟨h1, h2, h3⟩
    rw [if_neg (by omega)]
    cases axes with
    | none => exact ⟨_, rfl⟩
    | some ax =>
      obtain ⟨l, hl⟩ := h3 ax rfl
      simp only [normAxes_iff.2 hl]
      exact ⟨_, rfl⟩

theorem c34_arguments {name : String} {shape : List Nat} {p : Int} {axes : Option (List Int)} {c : Pnorm}
    (h : stdPnorm name shape p axes = .ok c) :
    c.name = name ∧ c.shape = shape ∧ (c.p : Int) = p ∧ Even c.p ∧ 0 < c.p ∧
    (axes = none → c.axes = none) ∧
    ∀ ax, axes = some ax → ∃ l, NamesAxes shape.length ax l ∧ c.axes = some l := by
  unfold stdPnorm at h
  split at h
  · cases h
  · rename_i hp
    have he : Even p.toNat := by
      rw [Nat.even_iff]; omega
    cases axes with
    | none => cases h; exact ⟨rfl, rfl, by simp; omega, he, by simp; omega, fun _ => rfl, fun _ h => by cases h⟩
    | some ax =>
      simp only at h
      cases ha : normAxes shape.length ax with
      | error e => rw [ha] at h; cases h
      | ok l =>
        rw [ha] at h
        cases h
        refine ⟨rfl, rfl, by simp; omega, he, by simp; omega, (fun h => by cases h), ?_⟩
        intro ax' h
        obtain rfl := Option.some.inj h
        exact ⟨l, normAxes_iff.1 ha, rfl⟩

/-- Other `p` raise `Exception`, whatever the axes. -/
theorem c34_rejects (name : String) (shape : List Nat) {p : Int} (axes : Option (List Int))
    (h : ¬ (0 < p ∧ 2 ∣ p)) : stdPnorm name shape p axes = .error .exception := by
  unfold stdPnorm
  rw [if_pos (by omega)]

/-- The 4-norm over the first axis of a matrix; at an array of ones no norm is zero. -/
example : ∃ c, stdPnorm "x" [2, 3] 4 (some [0]) = .ok c ∧ c.outShape = [3] ∧ Even c.p ∧
    ∀ r < prodShape c.outShape, c.result (fun _ _ => 1) r ≠ 0 := by
  refine ⟨⟨"x", [2, 3], some [0], 4⟩, rfl, rfl, by decide, ?_⟩
  intro r hr
  have h3 : r < 3 := by simpa [Pnorm.outShape, npDelete, prodShape] using hr
  rw [ne_eq, (c34_norm (by decide) (by decide) hr (fun _ _ => 1) (fun _ _ => 1) 1).2.1]
  intro h
  have : r < (⟨"x", [2, 3], some [0], 4⟩ : Pnorm).size := by simp [Pnorm.size, prodShape]; omega
  have hrow : (⟨"x", [2, 3], some [0], 4⟩ : Pnorm).row r = r := by
    have : ∀ r < 3, redRow [2, 3] [0] r = r := by decide
    exact this r h3
  exact one_ne_zero (h r this hrow)

/-! ## C33 for the p-norm -/

/-- The code violates **C33** for the p-norm, exactly: the norm in the formula is that of the last
evaluation. -/
theorem c33_pnorm_stale (c : Pnorm) (h : List Call) (inp : String → Nat → ℝ) :
    c.comp.partials (c.comp.after h) inp =
      match lastInputs h with
      | none => .error .attributeError
      | some x => .ok (c.coo (c.deriv (c.result x) inp)) := by
  rw [after_state c.comp c.result (fun _ _ => rfl) rfl]
  cases lastInputs h <;> rfl

theorem c33_pnorm_partial {c : Pnorm} (he : Even c.p) (h0 : 0 < c.p) {h : List Call}
    {inp : String → Nat → ℝ} (hnz : ∀ r < prodShape c.outShape, c.result inp r ≠ 0)
    (hl : lastInputs h = some inp) :
    ∃ P, c.comp.partials (c.comp.after h) inp = .ok P ∧
      ExactPartials [(c.name, c.size)] (prodShape c.outShape) c.result P inp := by
  refine ⟨_, ?_, c34_exact he h0 inp hnz⟩
  rw [c33_pnorm_stale, hl]

/-- Two histories after which the derivatives at one point differ, for every even `p`, all axes and every array that is
not empty. -/
theorem c33_pnorm_violated {c : Pnorm} (he : Even c.p) (h0 : 0 < c.p) (hne : 0 < c.size) : ¬ PointOnly c.comp := by
  intro h
  have := h [.compute fun _ _ => 1] [.compute fun _ _ => 2 * 1] fun _ _ => 1
  rw [c33_pnorm_stale, c33_pnorm_stale] at this
  have h2 := congrArg Coo.vals (congrFun (Except.ok.inj this) c.name)
  simp only [Pnorm.coo, if_true] at h2
  have h3 := (List.map_inj_left.1 h2) 0 (List.mem_range.2 hne)
  obtain ⟨n1, n2, n3, -⟩ := c34_norm he h0 (pnorm_row_lt c hne) (fun _ _ => 1) (fun _ _ => 1) 2
  have hR : 0 < c.result (fun _ _ => 1) (c.row 0) := by
    refine lt_of_le_of_ne n1 fun e => ?_
    exact one_ne_zero (n2.1 e.symm 0 hne rfl)
  simp only [Pnorm.deriv, n3, abs_two, one_pow, mul_one] at h3
  rw [show (fun (_ : String) (_ : Nat) => (2 : ℝ)) = fun _ _ => 2 * 1 by simp, n3, abs_two, mul_zpow] at h3
  have h2p : 2 ≤ c.p := by
    rcases he with ⟨m, hm⟩; omega
  have h4 : (2 : ℝ) ^ (1 - (c.p : ℤ)) < 1 := zpow_lt_one_of_neg₀ (by norm_num) (by omega)
  have h5 : 0 < c.result (fun _ _ => 1) (c.row 0) ^ (1 - (c.p : ℤ)) := zpow_pos hR _
  nlinarith

example : ¬ PointOnly (⟨"x", [2, 3], some [1], 2⟩ : Pnorm).comp :=
  c33_pnorm_violated (by decide) (by decide) (by decide)

end OM
