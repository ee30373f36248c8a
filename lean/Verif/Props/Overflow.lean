import Verif.Props.Extremum

/-! # The exponentials of the smooth maximum and minimum do not overflow (C65) -/

namespace OM

theorem foldl_max_ge {ι : Type} (f : ι → ℝ) (l : List ι) (a : ℝ) :
    a ≤ l.foldl (fun m n => max m (f n)) a ∧ ∀ n ∈ l, f n ≤ l.foldl (fun m n => max m (f n)) a := by
  induction l generalizing a with
  | nil => simp
  | cons n l ih =>
    obtain ⟨h1, h2⟩ := ih (max a (f n))
    refine ⟨le_trans (le_max_left _ _) h1, fun k hk => ?_⟩
    rcases List.mem_cons.1 hk with rfl | hk
    · exact le_trans (le_max_right _ _) h1
    · exact h2 k hk

theorem foldl_max_mem {ι : Type} (f : ι → ℝ) (l : List ι) (a : ℝ) :
    l.foldl (fun m n => max m (f n)) a = a ∨ ∃ n ∈ l, l.foldl (fun m n => max m (f n)) a = f n := by
  induction l generalizing a with
  | nil => simp
  | cons n l ih =>
    rw [List.foldl_cons]
    rcases ih (max a (f n)) with h | ⟨k, hk, h⟩
    · rcases max_choice a (f n) with h' | h'
      · exact .inl (h.trans h')
      · exact .inr ⟨n, by simp, h.trans h'⟩
    · exact .inr ⟨k, List.mem_cons_of_mem _ hk, h⟩

/-- A sum of exponentials, none above one and one of them equal to one, lies between one and their
number. -/
theorem sum_exp_bounds {ι : Type} {l : List ι} {f : ι → ℝ} (h : ∀ n ∈ l, f n ≤ 0)
    (h0 : ∃ n ∈ l, f n = 0) :
    1 ≤ (l.map fun n => Real.exp (f n)).sum ∧ (l.map fun n => Real.exp (f n)).sum ≤ l.length := by
  constructor
  · obtain ⟨n, hn, he⟩ := h0
    have := List.single_le_sum (l := l.map fun n => Real.exp (f n))
      (by
        intro x hx
        obtain ⟨k, _, rfl⟩ := List.mem_map.1 hx
        exact (Real.exp_pos _).le) _ (List.mem_map.2 ⟨n, hn, rfl⟩)
    rwa [he, Real.exp_zero] at this
  · have := List.sum_le_card_nsmul (l.map fun n => Real.exp (f n)) 1 (by
      intro x hx
      obtain ⟨k, hk, rfl⟩ := List.mem_map.1 hx
      exact Real.exp_le_one_iff.2 (h k hk))
    simpa using this

/-- **C65**, elementwise form: no argument of `exp` is positive, one of them is zero, and the argument of
`log` lies between one and the number of operands. -/
theorem c65_elementwise {c : Elem} (h0 : c.names ≠ []) (hr : 0 < c.rho) (inp : String → Nat → ℝ)
    (i : Nat) :
    (∀ n ∈ c.names, c.rho * (signed c.lower (inp n i) - c.fmax inp i) ≤ 0) ∧
    (∃ n ∈ c.names, c.rho * (signed c.lower (inp n i) - c.fmax inp i) = 0) ∧
    1 ≤ c.arg inp i ∧ c.arg inp i ≤ c.names.length := by
  have h1 : ∀ n ∈ c.names, c.rho * (signed c.lower (inp n i) - c.fmax inp i) ≤ 0 := fun n hn =>
    mul_nonpos_of_nonneg_of_nonpos hr.le (sub_nonpos.2
      ((foldl_max_ge (fun n => signed c.lower (inp n i)) c.names _).2 n hn))
  have h2 : ∃ n ∈ c.names, c.rho * (signed c.lower (inp n i) - c.fmax inp i) = 0 := by
    obtain ⟨n, ns, hns⟩ := List.exists_cons_of_ne_nil h0
    rcases foldl_max_mem (fun n => signed c.lower (inp n i)) c.names
      (signed c.lower (inp (c.names.headD "") i) - 1) with h | ⟨k, hk, h⟩
    · have := (foldl_max_ge (fun n => signed c.lower (inp n i)) c.names
        (signed c.lower (inp (c.names.headD "") i) - 1)).2 n (by simp [hns])
      rw [h] at this
      simp [hns] at this
      linarith
    · exact ⟨k, hk, by rw [show c.fmax inp i = _ from h, sub_self, mul_zero]⟩
  refine ⟨h1, h2, ?_⟩
  rw [elem_arg]
  exact sum_exp_bounds h1 h2

theorem npMax_spec {l : List ℝ} (h : l ≠ []) : npMax l ∈ l ∧ ∀ g ∈ l, g ≤ npMax l := by
  obtain ⟨a, l, rfl⟩ := List.exists_cons_of_ne_nil h
  have h1 := foldl_max_ge (fun g : ℝ => g) l a
  refine ⟨?_, fun g hg => ?_⟩
  · rcases foldl_max_mem (fun g : ℝ => g) l a with h | ⟨k, hk, h⟩
    · exact List.mem_cons.2 (.inl h)
    · exact List.mem_cons.2 (.inr (by rw [npMax]; rw [h]; exact hk))
  · rcases List.mem_cons.1 hg with rfl | hg
    · exact h1.1
    · exact h1.2 g hg

/-- **C65**, axis-wise and scalar forms. -/
theorem c65_reduction {c : Ks} (hp : ∀ n ∈ c.shape, 0 < n) (hr : 0 < c.rho) (inp : String → Nat → ℝ)
    {r : Nat} (hlt : r < prodShape c.outShape) :
    (∀ k ∈ c.group r, c.rho * (signed c.lower (inp c.name k) - c.gmax inp r) ≤ 0) ∧
    (∃ k ∈ c.group r, c.rho * (signed c.lower (inp c.name k) - c.gmax inp r) = 0) ∧
    1 ≤ c.summation inp r ∧ c.summation inp r ≤ (c.group r).length := by
  have hne := ks_group_ne hp hlt
  obtain ⟨hm, hg⟩ := npMax_spec (l := (c.group r).map fun k => signed c.lower (inp c.name k)) (by simpa)
  have h1 : ∀ k ∈ c.group r, c.rho * (signed c.lower (inp c.name k) - c.gmax inp r) ≤ 0 := fun k hk =>
    mul_nonpos_of_nonneg_of_nonpos hr.le (sub_nonpos.2 (hg _ (List.mem_map.2 ⟨k, hk, rfl⟩)))
  have h2 : ∃ k ∈ c.group r, c.rho * (signed c.lower (inp c.name k) - c.gmax inp r) = 0 := by
    obtain ⟨k, hk, he⟩ := List.mem_map.1 hm
    exact ⟨k, hk, by rw [Ks.gmax, ← he, sub_self, mul_zero]⟩
  refine ⟨h1, h2, ?_⟩
  have : c.summation inp r = ((c.group r).map fun k =>
      Real.exp (c.rho * (signed c.lower (inp c.name k) - c.gmax inp r))).sum := by
    unfold Ks.summation
    congr 1
    apply List.map_congr_left
    intro k hk
    have : c.row k = r := by simpa using (List.mem_filter.1 hk).2
    rw [Ks.exponent, this]
  rw [this]
  exact sum_exp_bounds h1 h2

/-- Two operands of two entries; a 2×3 matrix reduced along its first axis. -/
example : (⟨["x", "y"], 2, 20, false⟩ : Elem).names ≠ [] ∧ (∀ n ∈ [2, 3], 0 < n) ∧
    2 < prodShape (⟨"x", [2, 3], some 0, 20, true⟩ : Ks).outShape := by
  refine ⟨by simp, by simp, by decide⟩

end OM
