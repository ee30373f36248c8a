import Verif.Lemmas.Arith

/-! # Arithmetic operators (C26, C27, C28, C29, C54) -/

namespace OM
open Spec

/-- The mathematical value of an operand. -/
def Operand.value (inp : String → Nat → ℝ) : Operand → Nat → ℝ
  | .var n _ => inp n
  | .const c => c.at

/-! ## C26 -/

/-- **C26**, any number of terms and coefficients. -/
theorem c26_linear_combination {o : LinOpts} {c : Lin} (h : o.setup = .ok c) (inp : String → Nat → ℝ) :
    (∀ i, c.compute inp i = o.constant.at i +
      ((o.inNames.zip (getScalarsList o.coeffs o.inNames)).map fun t => t.2 * inp t.1 i).sum) ∧
    ExactPartials c.ins c.size c.compute c.partials inp := by
  unfold LinOpts.setup at h
  simp only at h
  split at h
  · rename_i hn
    cases h
    exact ⟨fun i => lin_compute _ _ _, lin_exact hn inp⟩
  · cases h

/-- **C26** for sums. -/
theorem c26_add {a b : Operand} {o : LinOpts} {c : Lin} (hb : pyOperator buildAdd a b = .ok (some o))
    (hs : o.setup = .ok c) (inp : String → Nat → ℝ) :
    (∀ i, c.compute inp i = a.value inp i + b.value inp i) ∧
    ExactPartials c.ins c.size c.compute c.partials inp := by
  obtain ⟨h1, h2⟩ := c26_linear_combination hs inp
  refine ⟨fun i => ?_, h2⟩
  rw [h1]
  rcases a with ⟨n1, s1⟩ | (c1 | c1) <;> rcases b with ⟨n2, s2⟩ | c2 <;>
    simp only [pyOperator, buildAdd] at hb
  · split at hb
    · cases hb
      simp [getScalarsList, Operand.value, Const.at, List.replicate]
    · cases hb
  · cases hb
    simp [getScalarsList, Operand.value, List.replicate, add_comm]
  · cases hb
    simp [getScalarsList, Operand.value, List.replicate]
  · cases hb
  · cases hb
  · cases hb

/-- **C26** for differences. -/
theorem c26_sub {a b : Operand} {o : LinOpts} {c : Lin} (hb : pyOperator buildSub a b = .ok (some o))
    (hs : o.setup = .ok c) (inp : String → Nat → ℝ) :
    (∀ i, c.compute inp i = a.value inp i - b.value inp i) ∧
    ExactPartials c.ins c.size c.compute c.partials inp := by
  obtain ⟨h1, h2⟩ := c26_linear_combination hs inp
  refine ⟨fun i => ?_, h2⟩
  rw [h1]
  rcases a with ⟨n1, s1⟩ | (c1 | c1) <;> rcases b with ⟨n2, s2⟩ | (c2 | c2) <;>
    simp only [pyOperator, buildSub] at hb
  · split at hb
    · cases hb
      simp [getScalarsList, Operand.value, Const.at]
      ring
    · cases hb
  · cases hb
    simp [getScalarsList, Operand.value, List.replicate, Const.neg, Const.at]
    ring
  · cases hb
    simp [getScalarsList, Operand.value, List.replicate, Const.neg, Const.at]
    ring
  · cases hb
    simp [getScalarsList, Operand.value, List.replicate]
    ring
  all_goals cases hb

/-- **C26**, which operands are accepted: two different expressions of equal shape, an expression and a
constant, a number and an expression. -/
theorem c26_accepts :
    (∀ n m s, n ≠ m → ∃ o c, pyOperator buildAdd (.var n s) (.var m s) = .ok (some o) ∧ o.setup = .ok c ∧
      c.size = prodShape s) ∧
    (∀ n m s, n ≠ m → ∃ o c, pyOperator buildSub (.var n s) (.var m s) = .ok (some o) ∧ o.setup = .ok c ∧
      c.size = prodShape s) ∧
    (∀ n s k, ∃ o c, pyOperator buildAdd (.var n s) (.const k) = .ok (some o) ∧ o.setup = .ok c ∧
      c.size = prodShape s) ∧
    (∀ n s k, ∃ o c, pyOperator buildSub (.var n s) (.const k) = .ok (some o) ∧ o.setup = .ok c ∧
      c.size = prodShape s) ∧
    (∀ n s k, ∃ o c, pyOperator buildAdd (.const (.num k)) (.var n s) = .ok (some o) ∧
      o.setup = .ok c ∧ c.size = prodShape s) ∧
    (∀ n s k, ∃ o c, pyOperator buildSub (.const (.num k)) (.var n s) = .ok (some o) ∧
      o.setup = .ok c ∧ c.size = prodShape s) := by
  refine ⟨?_, ?_, ?_, ?_, ?_, ?_⟩
  · intro n m s h
    simp only [pyOperator, buildAdd, if_true]
    exact ⟨_, _, rfl, by simp only [LinOpts.setup]; rw [if_pos (by simp [getScalarsList, List.replicate, h])], rfl⟩
  · intro n m s h
    simp only [pyOperator, buildSub, if_true]
    exact ⟨_, _, rfl, by simp only [LinOpts.setup]; rw [if_pos (by simp [getScalarsList, h])], rfl⟩
  all_goals
    intro n s k
    simp only [pyOperator, buildAdd, buildSub]
    exact ⟨_, _, rfl, by
      simp only [LinOpts.setup]; rw [if_pos (by simp [getScalarsList, List.replicate])], rfl⟩

/-- The code violates C26 for an array on the left of the operator: the result is no expression. -/
theorem c26_array_on_the_left (a : Nat → ℝ) (b : Operand) :
    pyOperator buildAdd (.const (.arr a)) b = .ok none ∧
    pyOperator buildSub (.const (.arr a)) b = .ok none := ⟨rfl, rfl⟩

/-- `5 - x` for an `x` of shape (2, 3), at some inputs. -/
example : ∃ o c, pyOperator buildSub (.const (.num 5)) (.var "x" [2, 3]) = .ok (some o) ∧
    o.setup = .ok c ∧ c.size = 6 ∧ c.compute (fun _ i => i) 4 = 1 := by
  obtain ⟨o, c, h1, h2, h3⟩ := c26_accepts.2.2.2.2.2 "x" [2, 3] 5
  refine ⟨o, c, h1, h2, h3, ?_⟩
  rw [(c26_sub h1 h2 _).1]
  simp [Operand.value, Const.at]
  norm_num

/-! ## C54 -/

/-- The code violates **C54** for every expression and shape: using one expression twice fails when the
component is set up. -/
theorem c54_same_operand_fails (n : String) (s : List Nat) :
    (∃ o, pyOperator buildAdd (.var n s) (.var n s) = .ok (some o) ∧ o.setup = .error .valueError) ∧
    (∃ o, pyOperator buildSub (.var n s) (.var n s) = .ok (some o) ∧ o.setup = .error .valueError) ∧
    (∃ o, pyOperator buildMul (.var n s) (.var n s) = .ok (some o) ∧ o.setup = .error .valueError) ∧
    (∃ o, pyOperator buildDiv (.var n s) (.var n s) = .ok (some o) ∧ o.setup = .error .valueError) := by
  refine ⟨?_, ?_, ?_, ?_⟩
  · simp only [pyOperator, buildAdd, if_true]
    exact ⟨_, rfl, by simp only [LinOpts.setup]; rw [if_neg (by simp [getScalarsList, List.replicate])]⟩
  · simp only [pyOperator, buildSub, if_true]
    exact ⟨_, rfl, by simp only [LinOpts.setup]; rw [if_neg (by simp [getScalarsList])]⟩
  · simp only [pyOperator, buildMul, if_true]
    exact ⟨_, rfl, by simp only [PowOpts.setup]; rw [if_neg (by simp)]⟩
  · simp only [pyOperator, buildDiv, if_true]
    exact ⟨_, rfl, by simp only [PowOpts.setup]; rw [if_neg (by simp)]⟩

/-- **C54**, what holds: different expressions of equal shape are accepted by all four operators. -/
theorem c54_different_operands_partial (n m : String) (h : n ≠ m) (s : List Nat) :
    (∃ o c, pyOperator buildAdd (.var n s) (.var m s) = .ok (some o) ∧ o.setup = .ok c) ∧
    (∃ o c, pyOperator buildSub (.var n s) (.var m s) = .ok (some o) ∧ o.setup = .ok c) ∧
    (∃ o c, pyOperator buildMul (.var n s) (.var m s) = .ok (some o) ∧ o.setup = .ok c) ∧
    (∃ o c, pyOperator buildDiv (.var n s) (.var m s) = .ok (some o) ∧ o.setup = .ok c) := by
  refine ⟨?_, ?_, ?_, ?_⟩
  · obtain ⟨o, c, h1, h2, -⟩ := c26_accepts.1 n m s h
    exact ⟨o, c, h1, h2⟩
  · obtain ⟨o, c, h1, h2, -⟩ := c26_accepts.2.1 n m s h
    exact ⟨o, c, h1, h2⟩
  · simp only [pyOperator, buildMul, if_true]
    exact ⟨_, _, rfl, by simp only [PowOpts.setup]; rw [if_pos (by simp [h])]⟩
  · simp only [pyOperator, buildDiv, if_true]
    exact ⟨_, _, rfl, by simp only [PowOpts.setup]; rw [if_pos (by simp [h])]⟩

/-! ## C27 -/

/-- All about a power component with a number as coefficient and numbers as exponents. -/
theorem c27_power_combination {o : PowOpts} {c : Pow} (hs : o.setup = .ok c)
    (hcoeff : ∃ k, o.coeff = .num k) (hnum : NumPowers c) {inp : String → Nat → ℝ}
    (hok : ∀ t ∈ c.terms, ∀ i < c.size, PowOk (inp t.1 i) (t.2.at i)) :
    c.compute inp = .ok (c.value inp) ∧
    ExactPartials c.ins c.size c.total (c.computePartials inp).2 inp := by
  have hok' : ∀ t ∈ c.terms, ∀ i < c.size, inp t.1 i ≠ 0 ∨ 1 ≤ t.2.at i :=
    fun t ht i hi => (hok t ht i hi).smooth
  refine ⟨pow_compute (passes_of_ok hnum hok'), ?_⟩
  unfold PowOpts.setup at hs
  split at hs
  · rename_i hn
    obtain ⟨k, hk⟩ := hcoeff
    cases hs
    refine pow_exact ?_ (fun t ht => .inl (hnum t ht)) _ hok' ?_
    · exact List.Sublist.nodup (zip_fst_sublist _ _) hn
    · intro t ht
      simp only [Pow.computePartials, Pow.mutate, hk]
  · cases hs

/-- **C27** for products of two expressions, and of an expression and a number: all inputs. -/
theorem c27_mul {a b : Operand} (ha : ∀ x, a ≠ .const (.arr x)) (hb' : ∀ x, b ≠ .const (.arr x))
    {o : PowOpts} {c : Pow} (hb : pyOperator buildMul a b = .ok (some o))
    (hs : o.setup = .ok c) (inp : String → Nat → ℝ) :
    (∃ r, c.compute inp = .ok r ∧ ∀ i, r i = a.value inp i * b.value inp i) ∧
    ExactPartials c.ins c.size c.total (c.computePartials inp).2 inp := by
  have main : ∀ (names : List String) (k : ℝ) (s : List Nat), o = ⟨s, names, .one 1, .num k⟩ →
      (c.terms = names.map fun n => (n, .num 1)) ∧ c.coeff = .num k := by
    rintro names k s rfl
    unfold PowOpts.setup at hs
    split at hs
    · cases hs
      refine ⟨?_, rfl⟩
      simp only [getPowersList]
      clear hb
      induction names with
      | nil => rfl
      | cons n ns ih =>
        rename_i hn
        simp [List.replicate, ih (List.nodup_cons.1 hn).2]
    · cases hs
  have main2 : ∀ (names : List String) (k : ℝ) (s : List Nat), o = ⟨s, names, .one 1, .num k⟩ →
      (∃ r, c.compute inp = .ok r ∧ ∀ i, r i = k * (names.map fun n => inp n i).prod) ∧
      ExactPartials c.ins c.size c.total (c.computePartials inp).2 inp := by
    intro names k s ho
    obtain ⟨m1, m2⟩ := main names k s ho
    have := c27_power_combination hs ⟨k, by rw [ho]⟩ (inp := inp)
      (fun t ht => by
        rw [m1] at ht
        obtain ⟨n, -, rfl⟩ := List.mem_map.1 ht
        exact ⟨1, rfl⟩)
      (fun t ht i _ => by
        rw [m1] at ht
        obtain ⟨n, -, rfl⟩ := List.mem_map.1 ht
        exact .inr ⟨⟨1, by simp [Power.at]⟩, .inr le_rfl⟩)
    refine ⟨⟨_, this.1, fun i => ?_⟩, this.2⟩
    simp only [Pow.value, m1, m2, Const.at, List.map_map]
    congr 2
    apply List.map_congr_left
    intro n _
    simp [Power.at]
  rcases a with ⟨n1, s1⟩ | (c1 | c1) <;> rcases b with ⟨n2, s2⟩ | (c2 | c2) <;>
    simp only [pyOperator, buildMul] at hb
  · split at hb
    · have := main2 [n1, n2] 1 s1 (by cases hb; rfl)
      simpa [Operand.value] using this
    · cases hb
  · have := main2 [n1] c2 s1 (by cases hb; rfl)
    simpa [Operand.value, Const.at, mul_comm] using this
  · exact absurd rfl (hb' c2)
  · have := main2 [n2] c1 s2 (by cases hb; rfl)
    simpa [Operand.value, Const.at] using this
  · cases hb
  · cases hb
  all_goals exact absurd rfl (ha c1)

/-- **C27** for quotients: wherever no denominator is zero. -/
theorem c27_div {a b : Operand} (ha : ∀ x, a ≠ .const (.arr x)) (hb' : ∀ x, b ≠ .const (.arr x))
    {o : PowOpts} {c : Pow} (hb : pyOperator buildDiv a b = .ok (some o))
    (hs : o.setup = .ok c) (inp : String → Nat → ℝ) (hz : ∀ i < c.size, b.value inp i ≠ 0) :
    (∃ r, c.compute inp = .ok r ∧ ∀ i, r i = a.value inp i / b.value inp i) ∧
    ExactPartials c.ins c.size c.total (c.computePartials inp).2 inp := by
  have hpow1 : ∀ x : ℝ, PowOk x 1 := fun x => .inr ⟨⟨1, by simp⟩, .inr le_rfl⟩
  have hpowm : ∀ x : ℝ, x ≠ 0 → PowOk x (-1) := fun x hx => .inr ⟨⟨-1, by simp⟩, .inl hx⟩
  rcases a with ⟨n1, s1⟩ | (c1 | c1) <;> rcases b with ⟨n2, s2⟩ | (c2 | c2) <;>
    simp only [pyOperator, buildDiv] at hb
  · split at hb
    · cases hb
      have hs0 := hs
      unfold PowOpts.setup at hs
      split at hs
      · cases hs
        have := c27_power_combination hs0 ⟨1, rfl⟩ (inp := inp)
          (fun t ht => by
            simp only [getPowersList, List.map_cons, List.map_nil, List.zip_cons_cons,
              List.zip_nil_right, List.mem_cons, List.not_mem_nil, or_false] at ht
            rcases ht with rfl | rfl
            · exact ⟨1, rfl⟩
            · exact ⟨-1, rfl⟩)
          (fun t ht i hi => by
            simp only [getPowersList, List.map_cons, List.map_nil, List.zip_cons_cons,
              List.zip_nil_right, List.mem_cons, List.not_mem_nil, or_false] at ht
            rcases ht with rfl | rfl
            · exact hpow1 _
            · exact hpowm _ (hz i hi))
        refine ⟨⟨_, this.1, fun i => ?_⟩, this.2⟩
        simp [Pow.value, getPowersList, Const.at, Power.at, Operand.value, Real.rpow_neg_one,
          div_eq_mul_inv]
      · cases hs
    · cases hb
  · split at hb
    · cases hb
    · cases hb
      have hs0 := hs
      unfold PowOpts.setup at hs
      split at hs
      · cases hs
        have := c27_power_combination hs0 ⟨1 / c2, rfl⟩ (inp := inp)
          (fun t ht => by
            simp only [getPowersList, List.length_cons, List.length_nil, List.replicate,
              List.zip_cons_cons, List.zip_nil_right, List.mem_singleton] at ht
            subst ht
            exact ⟨1, rfl⟩)
          (fun t ht i hi => by
            simp only [getPowersList, List.length_cons, List.length_nil, List.replicate,
              List.zip_cons_cons, List.zip_nil_right, List.mem_singleton] at ht
            subst ht
            exact hpow1 _)
        refine ⟨⟨_, this.1, fun i => ?_⟩, this.2⟩
        simp [Pow.value, getPowersList, Const.at, Power.at, Operand.value, List.replicate]
        ring
      · cases hs
  · exact absurd rfl (hb' c2)
  · cases hb
    have hs0 := hs
    unfold PowOpts.setup at hs
    split at hs
    · cases hs
      have := c27_power_combination hs0 ⟨c1, rfl⟩ (inp := inp)
        (fun t ht => by
          simp only [getPowersList, List.length_cons, List.length_nil, List.replicate,
            List.zip_cons_cons, List.zip_nil_right, List.mem_singleton] at ht
          subst ht
          exact ⟨-1, rfl⟩)
        (fun t ht i hi => by
          simp only [getPowersList, List.length_cons, List.length_nil, List.replicate,
            List.zip_cons_cons, List.zip_nil_right, List.mem_singleton] at ht
          subst ht
          exact hpowm _ (hz i hi))
      refine ⟨⟨_, this.1, fun i => ?_⟩, this.2⟩
      simp [Pow.value, getPowersList, Const.at, Power.at, Operand.value, List.replicate,
        Real.rpow_neg_one, div_eq_mul_inv]
    · cases hs
  · cases hb
  · cases hb
  all_goals exact absurd rfl (ha c1)

/-- A quotient with a zero denominator is not computed. -/
theorem c27_div_zero {n m : String} {s : List Nat} {o : PowOpts} {c : Pow}
    (hb : pyOperator buildDiv (.var n s) (.var m s) = .ok (some o)) (hs : o.setup = .ok c)
    (inp : String → Nat → ℝ) {i : Nat} (hi : i < c.size) (hz : inp m i = 0) :
    c.compute inp = .error .systemExit := by
  simp only [pyOperator, buildDiv, if_true] at hb
  cases hb
  unfold PowOpts.setup at hs
  split at hs
  · cases hs
    unfold Pow.compute
    have h1 : (if ∃ i < prodShape s, inp n i = 0 then zeroCheck (.num 1) else none) = none := by
      split
      · simp [zeroCheck]
      · rfl
    have h2 : (if ∃ i < prodShape s, inp m i = 0 then zeroCheck (.num (-1)) else none) =
        some PyErr.systemExit := by
      rw [if_pos ⟨i, hi, hz⟩]
      simp [zeroCheck]
    simp only [getPowersList, List.map_cons, List.map_nil, List.zip_cons_cons, List.zip_nil_right,
      List.foldlM_cons, List.foldlM_nil]
    rw [h1]
    simp only [bind, Except.bind]
    rw [h2]
  · cases hs

/-- **C27** for `x ** p` with a number `p`. For an integer exponent the value is the integer power. -/
theorem c27_pow (n : String) (s : List Nat) (p : ℝ) (inp : String → Nat → ℝ)
    (hok : ∀ i < prodShape s, PowOk (inp n i) p) :
    ∃ c, (buildPow n s (.num p)).setup = .ok c ∧ c.size = prodShape s ∧ c.ins = [(n, prodShape s)] ∧
      (∃ r, c.compute inp = .ok r ∧ (∀ i, r i = inp n i ^ p) ∧
        ∀ k : ℤ, p = k → ∀ i, r i = inp n i ^ k) ∧
      ExactPartials c.ins c.size c.total (c.computePartials inp).2 inp := by
  have hs : (buildPow n s (.num p)).setup = .ok ⟨prodShape s, [(n, .num p)], .num 1⟩ := by
    simp [buildPow, PowOpts.setup, getPowersList, List.replicate]
  refine ⟨_, hs, rfl, rfl, ?_⟩
  have := c27_power_combination hs ⟨1, rfl⟩ (inp := inp)
    (fun t ht => by
      simp only [List.mem_singleton] at ht
      subst ht
      exact ⟨p, rfl⟩)
    (fun t ht i hi => by
      simp only [List.mem_singleton] at ht
      subst ht
      exact hok i hi)
  have hv : ∀ i, (Pow.value ⟨prodShape s, [(n, .num p)], .num 1⟩ inp) i = inp n i ^ p := by
    intro i; simp [Pow.value, Const.at, Power.at]
  refine ⟨⟨_, this.1, hv, ?_⟩, this.2⟩
  rintro k rfl i
  rw [hv]
  exact Real.rpow_intCast _ _

/-- **C27** for `-x`. -/
theorem c27_neg (n : String) (s : List Nat) (inp : String → Nat → ℝ) :
    ∃ o c r, buildNeg n s = .ok (some o) ∧ o.setup = .ok c ∧ c.size = prodShape s ∧
      c.compute inp = .ok r ∧ (∀ i, r i = -inp n i) ∧
      ExactPartials c.ins c.size c.total (c.computePartials inp).2 inp := by
  have hb : pyOperator buildMul (.var n s) (.const (.num (-1))) =
      .ok (some ⟨s, [n], .one 1, .num (-1)⟩) := rfl
  have hs : (⟨s, [n], .one 1, .num (-1)⟩ : PowOpts).setup =
      .ok ⟨prodShape s, [(n, .num 1)], .num (-1)⟩ := by
    simp [PowOpts.setup, getPowersList, List.replicate]
  obtain ⟨⟨r, h1, h2⟩, h3⟩ := c27_mul (by simp) (by simp) hb hs inp
  refine ⟨_, _, r, hb, hs, rfl, h1, fun i => ?_, h3⟩
  rw [h2]
  simp [Operand.value, Const.at]

/-- `x ** 2` at `x = (0, -3)`: the hypotheses hold at zero and at negative numbers. -/
example : ∀ i < prodShape [2], PowOk ((fun _ i => if i = 0 then 0 else -3 : String → Nat → ℝ) "x" i) 2 :=
  fun _ _ => .inr ⟨⟨2, by norm_num⟩, .inr (by norm_num)⟩

/-! ## C28 -/

/-- An evaluation of the component or of its derivatives. -/
inductive PowOp
  | compute (inp : String → Nat → ℝ)
  | partials (inp : String → Nat → ℝ)

/-- The state after an operation. -/
noncomputable def Pow.step (c : Pow) : PowOp → Pow
  | .compute _ => c
  | .partials inp => (c.computePartials inp).1

/-- **C28** (partial): with a number as coefficient, no sequence of evaluations changes the component.
Missing: array coefficients, see `c28_array_coefficient_changes`. -/
theorem c28_number_coefficient_partial {c : Pow} {k : ℝ} (h : c.coeff = .num k) (ops : List PowOp) :
    ops.foldl Pow.step c = c := by
  induction ops with
  | nil => rfl
  | cons op ops ih =>
    have : c.step op = c := by
      cases op with
      | compute _ => rfl
      | partials inp => simp [Pow.step, Pow.computePartials, Pow.mutate, h]
    rw [List.foldl_cons, this, ih]

/-- The code violates C28 for array coefficients: after evaluating the derivatives of `coeff * x` at
some inputs, the component computes `(coeff * x) * x'` at inputs `x'`. -/
theorem c28_array_coefficient_changes (n : String) (s : List Nat) (a : Nat → ℝ)
    (inp inp' : String → Nat → ℝ) :
    ∃ o c r, pyOperator buildMul (.var n s) (.const (.arr a)) = .ok (some o) ∧ o.setup = .ok c ∧
      (∃ r₀, c.compute inp' = .ok r₀ ∧ ∀ i, r₀ i = a i * inp' n i) ∧
      (c.computePartials inp).1.compute inp' = .ok r ∧ ∀ i, r i = a i * inp n i * inp' n i := by
  have hs : (⟨s, [n], .one 1, .arr a⟩ : PowOpts).setup =
      .ok ⟨prodShape s, [(n, .num 1)], .arr a⟩ := by
    simp [PowOpts.setup, getPowersList, List.replicate]
  have hpass : ∀ (c : Pow) (i : String → Nat → ℝ), c.terms = [(n, .num 1)] →
      ∀ t ∈ c.terms, Passes c i t := by
    intro c i hc t ht _
    rw [hc, List.mem_singleton] at ht
    subst ht
    simp [zeroCheck]
  refine ⟨_, _, _, rfl, hs, ⟨_, pow_compute (hpass _ _ rfl), fun i => ?_⟩,
    pow_compute (hpass _ _ rfl), fun i => ?_⟩
  · simp [Pow.value, Const.at, Power.at]
  · simp [Pow.computePartials, Pow.mutate, Pow.value, Const.at, Power.at]

/-- … and already the first derivative returned for `coeff * x` is `coeff * x` instead of `coeff`. -/
theorem c28_array_coefficient_derivative (n : String) (s : List Nat) (a : Nat → ℝ)
    (inp : String → Nat → ℝ) :
    ∃ o c, pyOperator buildMul (.var n s) (.const (.arr a)) = .ok (some o) ∧ o.setup = .ok c ∧
      ((c.computePartials inp).2 n).vals = (List.range (prodShape s)).map fun i => a i * inp n i := by
  have hs : (⟨s, [n], .one 1, .arr a⟩ : PowOpts).setup =
      .ok ⟨prodShape s, [(n, .num 1)], .arr a⟩ := by
    simp [PowOpts.setup, getPowersList, List.replicate]
  refine ⟨_, _, rfl, hs, ?_⟩
  simp only [Pow.computePartials]
  apply List.map_congr_left
  intro i _
  rw [pow_deriv]
  simp [Pow.mutate, Const.at, Power.at]

/-- For `x = 2` and the coefficient `3`, the result changes from 6 to 12. -/
example : ∃ o c r r₀, pyOperator buildMul (.var "x" [1]) (.const (.arr fun _ => 3)) = .ok (some o) ∧
    o.setup = .ok c ∧ c.compute (fun _ _ => 2) = .ok r₀ ∧ r₀ 0 = 6 ∧
    (c.computePartials fun _ _ => 2).1.compute (fun _ _ => 2) = .ok r ∧ r 0 = 12 := by
  obtain ⟨o, c, r, h1, h2, ⟨r₀, h3, h4⟩, h5, h6⟩ :=
    c28_array_coefficient_changes "x" [1] (fun _ => 3) (fun _ _ => 2) (fun _ _ => 2)
  exact ⟨o, c, r, r₀, h1, h2, h3, by rw [h4]; norm_num, h5, by rw [h6]; norm_num⟩

/-! ## C29 -/

/-- **C29**, exactly what happens: only the first row of the exponent array is used (for an array of
rank one: only its first element), in the result and in the derivatives. Stated for bases other than 0
(for those: `c29_vector`, `c29_zero`, `c29_zero_rows`). -/
theorem c29_only_first_row (n : String) (m : Nat) (ms : List Nat) (p : Nat → ℝ)
    (inp : String → Nat → ℝ) (hne : ∀ i < prodShape (m :: ms), inp n i ≠ 0)
    (_hok : ∀ i < prodShape (m :: ms), PowOk (inp n i) (p (i % prodShape ms)))
    (hsize : 0 < prodShape (m :: ms)) :
    ∃ c r, (buildPow n (m :: ms) (.arr p)).setup = .ok c ∧ c.compute inp = .ok r ∧
      (∀ i, r i = inp n i ^ p (i % prodShape ms)) ∧ c.ins = [(n, prodShape (m :: ms))] ∧
      ExactPartials c.ins c.size c.total (c.computePartials inp).2 inp := by
  obtain ⟨m', rfl⟩ : ∃ m', m = m' + 1 := by
    cases m with
    | zero => simp [prodShape] at hsize
    | succ m' => exact ⟨m', rfl⟩
  have main : ∀ q : Power, (∀ i, q.at i = p (i % prodShape ms)) →
      (buildPow n ((m' + 1) :: ms) (.arr p)).setup = .ok ⟨prodShape ((m' + 1) :: ms), [(n, q)], .num 1⟩ →
      ∃ c r, (buildPow n ((m' + 1) :: ms) (.arr p)).setup = .ok c ∧ c.compute inp = .ok r ∧
      (∀ i, r i = inp n i ^ p (i % prodShape ms)) ∧ c.ins = [(n, prodShape ((m' + 1) :: ms))] ∧
      ExactPartials c.ins c.size c.total (c.computePartials inp).2 inp := by
    intro q hq hs
    refine ⟨_, _, hs, pow_compute ?_, ?_, rfl, pow_exact (by simp) ?_ _ ?_ ?_⟩
    · rintro t ht ⟨i, hi, h0⟩
      simp only [List.mem_singleton] at ht
      subst ht
      exact absurd h0 (hne i hi)
    · intro i
      simp [Pow.value, Const.at, hq]
    · intro t ht
      simp only [List.mem_singleton] at ht
      subst ht
      exact .inr hne
    · intro t ht i hi
      simp only [List.mem_singleton] at ht
      subst ht
      exact .inl (hne i hi)
    · intro t _
      rfl
  cases ms with
  | nil =>
    refine main (.num (p 0)) ?_ ?_
    · intro i
      simp [Power.at, prodShape, Nat.mod_one]
    · simp [buildPow, PowOpts.setup, getPowersList, List.range_succ_eq_map]
  | cons k ks =>
    refine main (.row (prodShape (k :: ks)) fun j => p (0 * prodShape (k :: ks) + j)) ?_ ?_
    · intro i
      simp [Power.at]
    · simp [buildPow, PowOpts.setup, getPowersList, List.range_succ_eq_map]

/-- An array of rank one in the place of the exponent is its first element: the components are the
same, for every input, zeros included (`c27_pow` is about those). -/
theorem c29_vector (n : String) (m : Nat) (p : Nat → ℝ) :
    (buildPow n [m + 1] (.arr p)).setup = (buildPow n [m + 1] (.num (p 0))).setup := by
  simp [buildPow, PowOpts.setup, getPowersList, List.range_succ_eq_map]

/-- The code violates C29 for every array of exponents whose rows are not all equal, whatever the shape:
for positive inputs other than 1 the result is the elementwise power exactly if each row of the
exponents is the first one. -/
theorem c29_wrong (n : String) (m : Nat) (ms : List Nat) (p : Nat → ℝ) (inp : String → Nat → ℝ)
    (hpos : ∀ i < prodShape (m :: ms), 0 < inp n i) (h1 : ∀ i < prodShape (m :: ms), inp n i ≠ 1)
    (hsize : 0 < prodShape (m :: ms)) :
    ∃ c r, (buildPow n (m :: ms) (.arr p)).setup = .ok c ∧ c.compute inp = .ok r ∧
      ∀ i < prodShape (m :: ms), (r i = inp n i ^ p i ↔ p i = p (i % prodShape ms)) := by
  obtain ⟨c, r, h2, h3, h4, -⟩ := c29_only_first_row n m ms p inp (fun i hi => (hpos i hi).ne')
    (fun i hi => .inl (hpos i hi)) hsize
  refine ⟨c, r, h2, h3, fun i hi => ?_⟩
  rw [h4, Real.rpow_right_inj (hpos i hi) (h1 i hi)]
  exact eq_comm

/-- With base 2 and exponents `0, 1` the second element of the result is `2 ^ 0` instead of `2 ^ 1`. -/
example : ∃ c r, (buildPow "x" [2] (.arr fun i => i)).setup = .ok c ∧
    c.compute (fun _ _ => 2) = .ok r ∧ r 1 ≠ (2 : ℝ) ^ ((1 : Nat) : ℝ) := by
  obtain ⟨c, r, h1, h2, h3⟩ := c29_wrong "x" 2 [] (fun i => i) (fun _ _ => 2)
    (fun _ _ => by norm_num) (fun _ _ => by norm_num) (by simp [prodShape])
  refine ⟨c, r, h1, h2, fun h => ?_⟩
  have := (h3 1 (by simp [prodShape])).1 h
  simp [prodShape, Nat.mod_one] at this

/-- **C29** (partial): correct, with exact derivatives, if all rows of the exponent array are equal, in
particular for equal exponents. Missing: all other arrays, for which the claim is false (`c29_wrong`),
and inputs with zeros for arrays of rank two or more, for which it is false too (`c29_zero_rows`). -/
theorem c29_equal_rows_partial (n : String) (m : Nat) (ms : List Nat) (p : Nat → ℝ)
    (inp : String → Nat → ℝ) (hne : ∀ i < prodShape (m :: ms), inp n i ≠ 0)
    (hok : ∀ i < prodShape (m :: ms), PowOk (inp n i) (p i))
    (hsize : 0 < prodShape (m :: ms)) (hrows : ∀ i < prodShape (m :: ms), p i = p (i % prodShape ms)) :
    ∃ c r, (buildPow n (m :: ms) (.arr p)).setup = .ok c ∧ c.compute inp = .ok r ∧
      (∀ i < prodShape (m :: ms), r i = inp n i ^ p i) ∧
      ExactPartials c.ins c.size c.total (c.computePartials inp).2 inp := by
  obtain ⟨c, r, h1, h2, h3, -, h4⟩ := c29_only_first_row n m ms p inp hne
    (fun i hi => by rw [← hrows i hi]; exact hok i hi) hsize
  exact ⟨c, r, h1, h2, fun i hi => by rw [h3, hrows i hi], h4⟩

/-- Negative inputs and equal integer exponents. -/
example : ∃ c r, (buildPow "x" [2, 3] (.arr fun _ => 3)).setup = .ok c ∧
    c.compute (fun _ _ => -2) = .ok r ∧ r 4 = (-2 : ℝ) ^ (3 : ℝ) := by
  obtain ⟨c, r, h1, h2, h3, -⟩ := c29_equal_rows_partial "x" 2 [3] (fun _ => 3) (fun _ _ => -2)
    (fun _ _ => by norm_num) (fun _ _ => .inr ⟨⟨3, by norm_num⟩, .inl (by norm_num)⟩)
    (by simp [prodShape]) (fun _ _ => rfl)
  exact ⟨c, r, h1, h2, h3 4 (by simp [prodShape])⟩

end OM
