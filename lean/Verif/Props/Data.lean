import Verif.Model.Data
import Verif.Lemmas.Shape
import Mathlib.Tactic.Linarith
import Mathlib.Tactic.NormNum

/-! # Shapes and values (C51), structured training data (C55) -/

namespace OM

/-! ## C51 -/

/-- **C51**: if the call succeeds, the value has exactly the shape; a number is broadcast to the shape given; an
array or list is kept as it is, and the shape is the one given unless that is `(1,)`. -/
theorem c51_agree {shape : List Nat} {val : PyVal} {s : List Nat} {v : NdArr}
    (h : getShapeVal shape val = .ok (s, v)) :
    v.shape = s ∧ v.data.length = prodShape s ∧ (shape ≠ [1] → s = shape) ∧
      (∀ c, val = .number c → s = shape ∧ ∀ x ∈ v.data, x = c) ∧
      (∀ a, val = .array a ∨ val = .list (.ok a) → v = a) := by
  have harr : ∀ a, arrShapeVal shape a = .ok (s, v) → v.shape = s ∧ (shape ≠ [1] → s = shape) ∧ v = a := by
    intro a h
    unfold arrShapeVal at h
    split at h
    · rename_i h1
      cases h
      exact ⟨rfl, fun hn => absurd h1 hn, rfl⟩
    · split at h
      · cases h
      · rename_i h2
        cases h
        exact ⟨not_not.1 h2, fun _ => rfl, rfl⟩
  cases val with
  | number c =>
    obtain ⟨rfl, rfl⟩ : shape = s ∧ npFull shape c = v := by simpa [getShapeVal] using h
    refine ⟨rfl, NdArr.size _, fun _ => rfl, fun c' hc => ⟨rfl, fun x hx => ?_⟩, fun a ha => by simp at ha⟩
    cases hc
    exact List.eq_of_mem_replicate hx
  | array a =>
    obtain ⟨h1, h2, h3⟩ := harr a h
    refine ⟨h1, h1 ▸ v.size, h2, (fun c hc => by cases hc), fun b hb => ?_⟩
    rcases hb with hb | hb
    · cases hb; exact h3
    · cases hb
  | list conv =>
    cases conv with
    | error e => cases h
    | ok a =>
      obtain ⟨h1, h2, h3⟩ := harr a h
      refine ⟨h1, h1 ▸ v.size, h2, (fun c hc => by cases hc), fun b hb => ?_⟩
      rcases hb with hb | hb
      · cases hb
      · cases hb; exact h3
  | other => cases h

/-- **C51**: which calls raise. A mismatch does, for every explicit shape other than `(1,)`. -/
theorem c51_raises (shape : List Nat) :
    (∀ c, ∃ r, getShapeVal shape (.number c) = .ok r) ∧
    (∀ a : NdArr, shape = [1] ∨ a.shape = shape → ∃ r, getShapeVal shape (.array a) = .ok r) ∧
    (∀ a : NdArr, shape ≠ [1] → a.shape ≠ shape → getShapeVal shape (.array a) = .error .valueError ∧
      getShapeVal shape (.list (.ok a)) = .error .valueError) ∧
    getShapeVal shape .other = .error .typeError := by
  refine ⟨fun c => ⟨_, rfl⟩, fun a h => ?_, fun a h1 h2 => ?_, rfl⟩
  · by_cases h1 : shape = [1]
    · exact ⟨_, if_pos h1⟩
    · exact ⟨_, (if_neg h1).trans (if_neg (not_not.2 (h.resolve_left h1)))⟩
  · exact ⟨(if_neg h1).trans (if_pos h2), (if_neg h1).trans (if_pos h2)⟩

example : ∃ s v, getShapeVal [2] (.list (.ok ⟨[2], [3, 4], rfl⟩)) = .ok (s, v) ∧ v.data = [3, 4] :=
  ⟨_, _, by simp [getShapeVal, arrShapeVal]; exact ⟨rfl, rfl⟩, rfl⟩

/-! ## C55 -/

theorem meshFlat_length (inputs : List (List ℝ)) :
    (meshFlat inputs).length = inputs.length * (cartesian inputs).length := by
  simp [meshFlat, List.length_flatMap]

/-- Entry `k * P + p` of the array before it is reshaped is coordinate `k` of point `p` of the grid. -/
theorem meshFlat_entry (inputs : List (List ℝ)) {k p : Nat} (hk : k < inputs.length)
    (hp : p < (cartesian inputs).length) :
    (meshFlat inputs)[k * (cartesian inputs).length + p]? = some (((cartesian inputs)[p]).getD k 0) := by
  unfold meshFlat
  rw [getElem?_flatMap_map (List.range inputs.length) (cartesian inputs) (fun k q => q.getD k 0) hp]
  simp [hk, hp]

theorem structureData_ok {inputs : List (List ℝ)} {outShape : List Nat} {ny : Nat} {d : TrainingData}
    (h : structureData inputs outShape ny = .ok d) :
    (meshFlat inputs).length = prodShape outShape / ny * inputs.length ∧ meshFlat inputs ≠ [] ∧
    d.xt = (List.range (prodShape outShape / ny)).map fun p =>
      (List.range inputs.length).map fun q => (meshFlat inputs).getD (p * inputs.length + q) 0 := by
  unfold structureData at h
  simp only at h
  split at h
  · cases h
  · rename_i hl
    split at h
    · cases h
    · rename_i hf
      cases h
      exact ⟨not_not.1 hl, by rw [hf]; exact List.cons_ne_nil _ _, rfl⟩

/-- If it succeeds, the number of rows is that of the points of the grid. -/
theorem structureData_rows {inputs : List (List ℝ)} {outShape : List Nat} {ny : Nat} {d : TrainingData}
    (h : structureData inputs outShape ny = .ok d) :
    prodShape outShape / ny = (cartesian inputs).length ∧ 0 < inputs.length := by
  obtain ⟨h1, h2, _⟩ := structureData_ok h
  have hm : 0 < inputs.length := by
    rcases Nat.eq_zero_or_pos inputs.length with h0 | h0
    · exact absurd (List.length_eq_zero_iff.1 (by rw [meshFlat_length, h0, Nat.zero_mul])) h2
    · exact h0
  rw [meshFlat_length, Nat.mul_comm] at h1
  exact ⟨(Nat.eq_of_mul_eq_mul_right hm h1).symm, hm⟩

/-- **C55** for one input, or for a grid of a single point: the rows are the points of the grid, in order.
Missing: grids of several inputs (`c55_not_grid`). -/
theorem c55_rows_partial {inputs : List (List ℝ)} {outShape : List Nat} {ny : Nat} {d : TrainingData}
    (h : structureData inputs outShape ny = .ok d) (h1 : inputs.length = 1 ∨ (cartesian inputs).length = 1) :
    d.xt = cartesian inputs := by
  obtain ⟨hP, hm⟩ := structureData_rows h
  obtain ⟨_, _, hx⟩ := structureData_ok h
  rw [hx, hP]
  have hrow : ∀ pt ∈ cartesian inputs, pt.length = inputs.length := fun pt hpt =>
    (mem_cartesian.1 hpt).length_eq
  refine List.ext_getElem (by simp) fun p hp1 hp2 => ?_
  simp only [List.getElem_map, List.getElem_range]
  refine List.ext_getElem (by simp [hrow _ (List.getElem_mem hp2)]) fun q hq1 hq2 => ?_
  simp only [List.getElem_map, List.getElem_range]
  have hq : q < inputs.length := by simpa using hq1
  have he : p * inputs.length + q = q * (cartesian inputs).length + p := by
    rcases h1 with h1 | h1
    · rw [h1] at hq ⊢
      have : q = 0 := by omega
      subst this
      omega
    · rw [h1] at hp2 ⊢
      have : p = 0 := by omega
      subst this
      omega
  rw [he, List.getD_eq_getElem?_getD, meshFlat_entry inputs hq hp2]
  simp [List.getD_eq_getElem?_getD, hq2]

/-- The claim is false for every grid of at least two inputs and two points in which the first input has no value
in common with the second: the first row is no point of the grid. -/
theorem c55_not_grid {a b : List ℝ} {rest : List (List ℝ)} {outShape : List Nat} {ny : Nat} {d : TrainingData}
    (h : structureData (a :: b :: rest) outShape ny = .ok d) (hab : ∀ x ∈ a, x ∉ b)
    (h2 : 2 ≤ (cartesian (a :: b :: rest)).length) : ∃ row ∈ d.xt, row ∉ cartesian (a :: b :: rest) := by
  obtain ⟨hP, hm⟩ := structureData_rows h
  obtain ⟨_, _, hx⟩ := structureData_ok h
  refine ⟨(List.range (a :: b :: rest).length).map fun q =>
    (meshFlat (a :: b :: rest)).getD (0 * (a :: b :: rest).length + q) 0, ?_, ?_⟩
  · rw [hx, hP]
    exact List.mem_map.2 ⟨0, List.mem_range.2 (by omega), rfl⟩
  · intro hmem
    have hf := mem_cartesian.1 hmem
    have hrow : (List.range (a :: b :: rest).length).map (fun q => (meshFlat (a :: b :: rest)).getD
        (0 * (a :: b :: rest).length + q) 0) =
        (meshFlat (a :: b :: rest)).getD 0 0 :: (meshFlat (a :: b :: rest)).getD 1 0 ::
          (List.range rest.length).map fun q => (meshFlat (a :: b :: rest)).getD (q + 1 + 1) 0 := by
      simp only [List.length_cons, List.range_succ_eq_map, List.map_cons, List.map_map, Nat.zero_mul, Nat.zero_add]
      rfl
    rw [hrow] at hf
    obtain ⟨_, hf⟩ := List.forall₂_cons.1 hf
    obtain ⟨hb, _⟩ := List.forall₂_cons.1 hf
    have he := meshFlat_entry (a :: b :: rest) (k := 0) (p := 1) (by simp) (by omega)
    rw [Nat.zero_mul, Nat.zero_add] at he
    rw [List.getD_eq_getElem?_getD, he] at hb
    have hpt := mem_cartesian.1 (List.getElem_mem (l := cartesian (a :: b :: rest)) (n := 1) (by omega))
    obtain ⟨x, xs, hx1, _, hx3⟩ := List.forall₂_cons_right_iff.1 hpt
    rw [hx3] at hb
    exact hab x hx1 (by simpa using hb)

/-- What the array holds: read with one row for each input and transposed, it is the grid. -/
theorem c55_transposed {inputs : List (List ℝ)} {outShape : List Nat} {ny : Nat} {d : TrainingData}
    (h : structureData inputs outShape ny = .ok d) {k p : Nat} (hk : k < inputs.length)
    (hp : p < (cartesian inputs).length) :
    d.xt.flatten[k * (cartesian inputs).length + p]? = some (((cartesian inputs)[p]).getD k 0) := by
  obtain ⟨hP, hm⟩ := structureData_rows h
  obtain ⟨hl, _, hx⟩ := structureData_ok h
  have hflat : d.xt.flatten = meshFlat inputs := by
    rw [hx, ← List.flatMap_def]
    refine List.ext_getElem? fun i => ?_
    by_cases hi : i < (meshFlat inputs).length
    · have h1 : i = i / inputs.length * inputs.length + i % inputs.length := (Nat.div_add_mod' _ _).symm
      have hdiv : i / inputs.length < prodShape outShape / ny := by
        rw [Nat.div_lt_iff_lt_mul hm, ← hl]; exact hi
      have := getElem?_flatMap_map (List.range (prodShape outShape / ny)) (List.range inputs.length)
        (fun p q => (meshFlat inputs).getD (p * inputs.length + q) 0) (i := i / inputs.length)
        (j := i % inputs.length) (by simpa using Nat.mod_lt _ hm)
      rw [List.length_range, ← h1] at this
      rw [this]
      simp only [List.getElem?_range hdiv, List.getElem?_range (Nat.mod_lt i hm)]
      simp [← h1, List.getD_eq_getElem?_getD, hi]
    · rw [List.getElem?_eq_none (l := meshFlat inputs) (by omega), List.getElem?_eq_none]
      rw [List.length_flatMap]
      simp
      omega
  rw [hflat, meshFlat_entry inputs hk hp]

/-- Data are refused, with `ValueError`, exactly if there are no points or inputs, or the number of rows that the size of
the output gives is not the number of points. -/
theorem c55_exceptions (inputs : List (List ℝ)) (outShape : List Nat) (ny : Nat) :
    ((∃ d, structureData inputs outShape ny = .ok d) ↔
      inputs ≠ [] ∧ [] ∉ inputs ∧ (cartesian inputs).length = prodShape outShape / ny) ∧
    ∀ e, structureData inputs outShape ny = .error e → e = .valueError := by
  have hc : (cartesian inputs).length ≠ 0 ↔ [] ∉ inputs := by
    rw [cartesian_length]
    induction inputs with
    | nil => simp [prodShape]
    | cons l ls ih =>
      rw [List.map_cons, prodShape_cons, Nat.mul_ne_zero_iff, ih, List.mem_cons, not_or, Ne, List.length_eq_zero_iff]
      exact and_congr_left fun _ => ⟨fun h e => h e.symm, fun h e => h e.symm⟩
  constructor
  · constructor
    · rintro ⟨d, h⟩
      obtain ⟨h1, h2⟩ := structureData_rows h
      obtain ⟨-, h4, -⟩ := structureData_ok h
      refine ⟨List.length_pos_iff.1 h2, hc.1 fun h0 => h4 (List.length_eq_zero_iff.1 ?_), h1.symm⟩
      rw [meshFlat_length, h0, Nat.mul_zero]
    · rintro ⟨h1, h2, h3⟩
      unfold structureData
      simp only
      rw [if_neg (by rw [meshFlat_length, h3, Nat.mul_comm]; simp)]
      cases hf : meshFlat inputs with
      | cons x xs => exact ⟨_, rfl⟩
      | nil =>
        have := congrArg List.length hf
        rw [meshFlat_length, List.length_nil, Nat.mul_eq_zero] at this
        rcases this with h | h
        · exact absurd (List.length_eq_zero_iff.1 h) h1
        · exact absurd h (hc.2 h2)
  · intro e h
    unfold structureData at h
    simp only at h
    split at h
    · cases h; rfl
    · split at h
      · cases h; rfl
      · cases h

/-- The limits returned for every input are those of all inputs together: no value is outside them. -/
theorem c55_limits {inputs : List (List ℝ)} {outShape : List Nat} {ny : Nat} {d : TrainingData}
    (h : structureData inputs outShape ny = .ok d) : d.xlimits.length = inputs.length ∧
    ∀ l ∈ d.xlimits, l.1 ∈ meshFlat inputs ∧ l.2 ∈ meshFlat inputs ∧ ∀ x ∈ meshFlat inputs, l.1 ≤ x ∧ x ≤ l.2 := by
  have hmin : ∀ (xs : List ℝ) (x : ℝ), xs.foldl min x ∈ x :: xs ∧ ∀ y ∈ x :: xs, xs.foldl min x ≤ y := by
    intro xs
    induction xs with
    | nil => intro x; simp
    | cons z xs ih =>
      intro x
      obtain ⟨h1, h2⟩ := ih (min x z)
      rw [List.foldl_cons]
      constructor
      · rcases List.mem_cons.1 h1 with h1 | h1
        · rw [h1]
          rcases min_choice x z with h | h <;> rw [h] <;> simp
        · exact List.mem_cons_of_mem _ (List.mem_cons_of_mem _ h1)
      · intro y hy
        have h0 := h2 _ List.mem_cons_self
        simp only [List.mem_cons] at hy
        rcases hy with rfl | rfl | hy
        · exact h0.trans (min_le_left _ _)
        · exact h0.trans (min_le_right _ _)
        · exact h2 _ (List.mem_cons_of_mem _ hy)
  have hmax : ∀ (xs : List ℝ) (x : ℝ), xs.foldl max x ∈ x :: xs ∧ ∀ y ∈ x :: xs, y ≤ xs.foldl max x := by
    intro xs
    induction xs with
    | nil => intro x; simp
    | cons z xs ih =>
      intro x
      obtain ⟨h1, h2⟩ := ih (max x z)
      rw [List.foldl_cons]
      constructor
      · rcases List.mem_cons.1 h1 with h1 | h1
        · rw [h1]
          rcases max_choice x z with h | h <;> rw [h] <;> simp
        · exact List.mem_cons_of_mem _ (List.mem_cons_of_mem _ h1)
      · intro y hy
        have h0 := h2 _ List.mem_cons_self
        simp only [List.mem_cons] at hy
        rcases hy with rfl | rfl | hy
        · exact (le_max_left _ _).trans h0
        · exact (le_max_right _ _).trans h0
        · exact h2 _ (List.mem_cons_of_mem _ hy)
  unfold structureData at h
  simp only at h
  split at h
  · cases h
  · split at h
    · cases h
    · rename_i x xs hf
      cases h
      refine ⟨List.length_replicate, fun l hl => ?_⟩
      rw [List.eq_of_mem_replicate hl, hf]
      exact ⟨(hmin xs x).1, (hmax xs x).1, fun y hy => ⟨(hmin xs x).2 y hy, (hmax xs x).2 y hy⟩⟩

example : ∃ d, structureData [[0, 1], [2, 3]] [4] 1 = .ok d ∧ (∀ x ∈ ([0, 1] : List ℝ), x ∉ ([2, 3] : List ℝ)) ∧
    2 ≤ (cartesian ([[0, 1], [2, 3]] : List (List ℝ))).length := by
  refine ⟨_, rfl, ?_, by simp [cartesian]⟩
  intro x hx
  simp only [List.mem_cons, List.not_mem_nil, or_false] at hx ⊢
  rcases hx with rfl | rfl <;> norm_num

end OM
