import Verif.Props.Product

/-! # Multi-indices of concatenated shapes, and `np.tensordot` with an identity -/

namespace OM
open Spec

theorem sum_filter_bool {α : Type} (l : List α) (p : α → Bool) (x : α → ℝ) :
    ((l.filter p).map x).sum = (l.map fun c => if p c = true then x c else 0).sum := by
  induction l with
  | nil => rfl
  | cons a l ih => by_cases h : p a = true <;> simp [h, ih]

theorem inBounds_append {s t i j : List Nat} (hi : InBounds s i) (hj : InBounds t j) :
    InBounds (s ++ t) (i ++ j) := List.rel_append hi hj

theorem unravel_append {s t : List Nat} {r c : Nat} (hr : r < prodShape s) (hc : c < prodShape t) :
    unravel (s ++ t) (r * prodShape t + c) = unravel s r ++ unravel t c := by
  have h1 := unravel_inBounds hr
  have h2 := unravel_inBounds hc
  have h3 := unravel_ravel (inBounds_append h1 h2)
  rwa [ravel_append h1, ravel_unravel hr, ravel_unravel hc] at h3

theorem npDelete_append {α : Type} {axes : List Nat} {l m : List α} (h : ∀ a ∈ axes, a < l.length) :
    npDelete axes (l ++ m) = npDelete axes l ++ m := by
  unfold npDelete
  rw [List.zipIdx_append, List.filter_append, List.map_append]
  congr 1
  rw [List.filter_eq_self.2, List.zipIdx_map_fst]
  intro p hp
  have := List.mem_zipIdx hp
  simp only [decide_eq_true_eq]
  intro ha
  have := h _ ha
  omega

theorem npDelete_inBounds {axes s i : List Nat} (h : InBounds s i) :
    InBounds (npDelete axes s) (npDelete axes i) := by
  rw [npDelete_eq, npDelete_eq, inBounds_length h]
  exact dropMask_inBounds h

theorem npIdentity_sum (N : Nat) (g : Nat → ℝ) :
    ((List.range (N * N)).map fun k => npIdentity N k * g k).sum =
      ((List.range N).map fun i => g (i * N + i)).sum := by
  rw [range_mul, List.map_flatMap, List.flatMap_def, List.sum_flatten, List.map_map]
  congr 1
  apply List.map_congr_left
  intro q hq
  have hq := List.mem_range.1 hq
  simp only [Function.comp_apply]
  rw [List.map_map, sum_map_range]
  rw [Finset.sum_eq_single_of_mem q (Finset.mem_range.2 hq)]
  · simp only [Function.comp_apply, npIdentity, mul_add_div_lt hq, mul_add_mod_lt hq, if_true, one_mul]
  · intro c hc hne
    have hc := Finset.mem_range.1 hc
    simp only [Function.comp_apply, npIdentity, mul_add_div_lt hc, mul_add_mod_lt hc]
    rw [if_neg (fun h => hne h.symm), zero_mul]

theorem getD_append_lt {l m : List Nat} {k : Nat} (h : k < l.length) : (l ++ m).getD k 0 = l.getD k 0 := by
  rw [List.getD_eq_getElem?_getD, List.getD_eq_getElem?_getD, List.getElem?_append_left h]

/-- `β` names in an array of shape `s ++ s` the axes that `ax` names in one of shape `s`, if both halves of the index are the
same; deleting them leaves the other axes first. -/
structure Doubles (rank : Nat) (β ax : List Nat) : Prop where
  get : ∀ x : List Nat, x.length = rank → β.map (fun k => (x ++ x).getD k 0) = ax.map fun k => x.getD k 0
  del : ∀ x : List Nat, x.length = rank → npDelete β (x ++ x) = npDelete ax x ++ x

theorem doubles_self {rank : Nat} {ax : List Nat} (h : ∀ a ∈ ax, a < rank) : Doubles rank ax ax where
  get x hx := List.map_congr_left fun a ha => getD_append_lt (by rw [hx]; exact h a ha)
  del x hx := npDelete_append (by rw [hx]; exact h)

/-- The contracted axes in an array of doubled rank, on the diagonal. -/
theorem contracted_left {s t β ax0 ax1 : List Nat}
    (h : ∀ x : List Nat, x.length = s.length → β.map (fun k => (x ++ x).getD k 0) = ax0.map fun k => x.getD k 0) {i j : Nat}
    (hi : i < prodShape s) :
    contracted (s ++ s) β t ax1 (i * prodShape s + i) j = contracted s ax0 t ax1 i j := by
  unfold contracted
  rw [unravel_append hi hi, h _ (unravel_length _ _)]

theorem contracted_right {s t β ax0 ax1 : List Nat}
    (h : ∀ x : List Nat, x.length = t.length → β.map (fun k => (x ++ x).getD k 0) = ax1.map fun k => x.getD k 0) {i j : Nat}
    (hj : j < prodShape t) :
    contracted s ax0 (t ++ t) β i (j * prodShape t + j) = contracted s ax0 t ax1 i j := by
  unfold contracted
  rw [unravel_append hj hj, h _ (unravel_length _ _)]

theorem tensordotRow_right {s t β ax0 ax1 : List Nat} (h : Doubles t.length β ax1) {i j : Nat}
    (hi : i < prodShape s) (hj : j < prodShape t) :
    tensordotRow s ax0 (t ++ t) β i (j * prodShape t + j) =
      tensordotRow s ax0 t ax1 i j * prodShape t + j := by
  unfold tensordotRow tensordotShape
  rw [unravel_append hj hj, h.del _ rfl, h.del _ (unravel_length _ _), ← List.append_assoc, ← List.append_assoc,
    ravel_append, ravel_unravel hj]
  exact inBounds_append (npDelete_inBounds (unravel_inBounds hi)) (npDelete_inBounds (unravel_inBounds hj))

theorem tensordotRow_lt {s t ax0 ax1 : List Nat} {i j : Nat}
    (hi : i < prodShape s) (hj : j < prodShape t) :
    tensordotRow s ax0 t ax1 i j < prodShape (tensordotShape s ax0 t ax1) :=
  ravel_lt (inBounds_append (npDelete_inBounds (unravel_inBounds hi))
    (npDelete_inBounds (unravel_inBounds hj)))

/-- `np.tensordot(a, I, axes)`: row `r`, column `c`. -/
theorem tensordot_identity_right {s t β ax0 ax1 : List Nat} (h : Doubles t.length β ax1)
    (a : Nat → ℝ) {r c : Nat} (hc : c < prodShape t) :
    npTensordot s ax0 (t ++ t) β a (npIdentity (prodShape t)) (r * prodShape t + c) =
      ((List.range (prodShape s)).map fun i =>
        if contracted s ax0 t ax1 i c = true ∧ tensordotRow s ax0 t ax1 i c = r then a i else 0).sum := by
  unfold npTensordot
  congr 1
  apply List.map_congr_left
  intro i hi
  have hi := List.mem_range.1 hi
  have h1 : ∀ j, (if contracted s ax0 (t ++ t) β i j = true ∧ tensordotRow s ax0 (t ++ t) β i j =
      r * prodShape t + c then a i * npIdentity (prodShape t) j else 0) =
      npIdentity (prodShape t) j * (if contracted s ax0 (t ++ t) β i j = true ∧
        tensordotRow s ax0 (t ++ t) β i j = r * prodShape t + c then a i else 0) := by
    intro j
    split
    · ring
    · ring
  simp only [h1]
  rw [prodShape_append, npIdentity_sum, sum_map_range,
    Finset.sum_eq_single_of_mem c (Finset.mem_range.2 hc)]
  · rw [contracted_right h.get hc, tensordotRow_right h hi hc]
    have : tensordotRow s ax0 t ax1 i c * prodShape t + c = r * prodShape t + c ↔
        tensordotRow s ax0 t ax1 i c = r := by
      constructor
      · intro e
        have e' := congrArg (· / prodShape t) e
        simpa only [mul_add_div_lt hc] using e'
      · intro e; rw [e]
    simp only [this]
  · intro j hj hne
    have hj := Finset.mem_range.1 hj
    rw [contracted_right h.get hj, tensordotRow_right h hi hj, if_neg]
    rintro ⟨_, e⟩
    have e' := congrArg (· % prodShape t) e
    simp only [mul_add_mod_lt hj, mul_add_mod_lt hc] at e'
    exact hne e'

/-! ## The transposed partial by the first operand -/

theorem idxOf_range {A ax : Nat} (h : ax < A) : (List.range A).idxOf ax = ax := by
  have h1 : (List.range A)[ax]'(by simpa using h) = ax := by simp
  have := List.Nodup.idxOf_getElem (List.nodup_range (n := A)) ax (by simpa using h)
  rwa [h1] at this

theorem idxOf_range' {A B ax : Nat} (h1 : A ≤ ax) (h2 : ax < A + B) : (List.range' A B).idxOf ax = ax - A := by
  have hl : ax - A < (List.range' A B).length := by simp; omega
  have h3 : (List.range' A B)[ax - A] = ax := by simp; omega
  have := List.Nodup.idxOf_getElem (List.nodup_range' (s := A) (n := B)) (ax - A) hl
  rwa [h3] at this

/-- The axes of `rem0`, `shape0`, `rem1` rearranged to `rem0`, `rem1`, `shape0`. -/
def permOf (A B C : Nat) : List Nat := List.range A ++ List.range' (A + B) C ++ List.range' A B

theorem permOf_map (a b c : List Nat) :
    (permOf a.length b.length c.length).map (fun k => (a ++ b ++ c).getD k 0) = a ++ c ++ b := by
  unfold permOf
  rw [List.map_append, List.map_append]
  congr 1
  · congr 1
    · apply List.ext_getElem (by simp)
      intro k h1 h2
      rw [List.getElem_map, List.getElem_range, List.append_assoc, getD_append_lt h2,
        List.getD_eq_getElem _ _ h2]
    · apply List.ext_getElem (by simp)
      intro k h1 h2
      rw [List.getElem_map, List.getElem_range', List.getD_eq_getElem?_getD,
        List.getElem?_append_right (by simp)]
      simp [h2]
  · apply List.ext_getElem (by simp)
    intro k h1 h2
    rw [List.getElem_map, List.getElem_range', List.getD_eq_getElem?_getD,
      List.getElem?_append_left (by simp; omega), List.getElem?_append_right (by simp)]
    simp [h2]

theorem permOf_inverse (a b c : List Nat) :
    ((List.range (a.length + b.length + c.length)).map fun ax =>
      (a ++ c ++ b).getD ((permOf a.length b.length c.length).idxOf ax) 0) = a ++ b ++ c := by
  apply List.ext_getElem (by simp [Nat.add_assoc])
  intro k h1 h2
  simp only [List.length_append] at h2
  rw [List.getElem_map, List.getElem_range]
  unfold permOf
  by_cases hA : k < a.length
  · rw [List.idxOf_append_of_mem (by simp [hA]), List.idxOf_append_of_mem (by simp [hA]), idxOf_range hA,
      List.append_assoc, getD_append_lt hA, List.getD_eq_getElem _ _ hA]
    rw [List.getElem_append_left (by simp; omega), List.getElem_append_left hA]
  · by_cases hB : k < a.length + b.length
    · rw [List.idxOf_append_of_notMem (by simp; omega), idxOf_range' (by omega) hB]
      rw [List.getElem_append_left (by simp; omega), List.getElem_append_right (by omega)]
      rw [List.getD_eq_getElem?_getD, List.getElem?_append_right (by simp)]
      have : (List.range a.length ++ List.range' (a.length + b.length) c.length).length +
          (k - a.length) - (a ++ c).length = k - a.length := by simp
      rw [Nat.add_comm] at this
      first
        | rw [this]
        | (rw [Nat.add_comm] at this; rw [this])
      rw [List.getElem?_eq_getElem (by omega)]
      try rfl
    · rw [List.idxOf_append_of_mem (by simp; omega), List.idxOf_append_of_notMem (by simp; omega),
        idxOf_range' (by omega) (by omega)]
      rw [List.getElem_append_right (by simp; omega)]
      rw [List.getD_eq_getElem?_getD, List.getElem?_append_left (by simp; omega),
        List.getElem?_append_right (by simp)]
      simp only [List.length_range, List.length_append]
      rw [List.getElem?_eq_getElem (by omega)]
      simp

theorem inBounds_append_iff {s t i : List Nat} (h : InBounds (s ++ t) i) :
    ∃ i0 i1, i = i0 ++ i1 ∧ InBounds s i0 ∧ InBounds t i1 := by
  refine ⟨i.take s.length, i.drop s.length, (List.take_append_drop _ _).symm, ?_, ?_⟩
  · have := List.forall₂_take (R := (· < ·)) s.length h
    simpa [InBounds] using this
  · have := List.forall₂_drop (R := (· < ·)) s.length h
    simpa [InBounds] using this

/-- `np.transpose(np.tensordot(I, b, axes), new_axes_locations)`: row `r`, column `c`. -/
theorem tensordot_identity_left {s t β ax0 ax1 : List Nat} (h : Doubles s.length β ax0)
    (b : Nat → ℝ) {r c : Nat} (hc : c < prodShape s) (hr : r < prodShape (tensordotShape s ax0 t ax1)) :
    npTranspose (tensordotShape (s ++ s) β t ax1)
        (permOf (npDelete ax0 s).length s.length (npDelete ax1 t).length)
        (npTensordot (s ++ s) β t ax1 (npIdentity (prodShape s)) b) (r * prodShape s + c) =
      ((List.range (prodShape t)).map fun j =>
        if contracted s ax0 t ax1 c j = true ∧ tensordotRow s ax0 t ax1 c j = r then b j else 0).sum := by
  have hsh : tensordotShape (s ++ s) β t ax1 = npDelete ax0 s ++ s ++ npDelete ax1 t := by
    rw [tensordotShape, h.del _ rfl]
  obtain ⟨ρ0, ρ1, hρ, hρ0, hρ1⟩ := inBounds_append_iff (unravel_inBounds hr)
  have hκ := unravel_inBounds hc
  unfold npTranspose
  rw [hsh, permOf_map]
  simp only
  have hu : unravel (npDelete ax0 s ++ npDelete ax1 t ++ s) (r * prodShape s + c) =
      ρ0 ++ ρ1 ++ unravel s c := by
    exact (unravel_append (s := npDelete ax0 s ++ npDelete ax1 t) hr hc).trans (congrArg (· ++ _) hρ)
  rw [hu]
  have hperm : (List.range (npDelete ax0 s ++ s ++ npDelete ax1 t).length).map (fun ax =>
      (ρ0 ++ ρ1 ++ unravel s c).getD
        ((permOf (npDelete ax0 s).length s.length (npDelete ax1 t).length).idxOf ax) 0) =
      ρ0 ++ unravel s c ++ ρ1 := by
    have := permOf_inverse ρ0 (unravel s c) ρ1
    rw [inBounds_length hρ0, inBounds_length hρ1, inBounds_length hκ] at this
    rw [List.length_append, List.length_append]
    exact this
  rw [hperm]
  have hq := inBounds_append (inBounds_append hρ0 hκ) hρ1
  unfold npTensordot
  have h1 : ∀ i, ((List.range (prodShape t)).map fun j =>
      if contracted (s ++ s) β t ax1 i j = true ∧ tensordotRow (s ++ s) β t ax1 i j =
        ravel (npDelete ax0 s ++ s ++ npDelete ax1 t) (ρ0 ++ unravel s c ++ ρ1)
      then npIdentity (prodShape s) i * b j else 0).sum = npIdentity (prodShape s) i *
      ((List.range (prodShape t)).map fun j =>
        if contracted (s ++ s) β t ax1 i j = true ∧ tensordotRow (s ++ s) β t ax1 i j =
          ravel (npDelete ax0 s ++ s ++ npDelete ax1 t) (ρ0 ++ unravel s c ++ ρ1)
        then b j else 0).sum := by
    intro i
    rw [← List.sum_map_mul_left]
    congr 1
    apply List.map_congr_left
    intro j _
    split
    · rfl
    · ring
  simp only [h1]
  rw [prodShape_append, npIdentity_sum, sum_map_range, Finset.sum_eq_single_of_mem c (Finset.mem_range.2 hc)]
  · congr 1
    apply List.map_congr_left
    intro j hj
    have hj := List.mem_range.1 hj
    rw [contracted_left h.get hc]
    have : tensordotRow (s ++ s) β t ax1 (c * prodShape s + c) j =
        ravel (npDelete ax0 s ++ s ++ npDelete ax1 t) (ρ0 ++ unravel s c ++ ρ1) ↔
        tensordotRow s ax0 t ax1 c j = r := by
      unfold tensordotRow
      rw [hsh, unravel_append hc hc, h.del _ (unravel_length _ _)]
      have hd0 := npDelete_inBounds (axes := ax0) hκ
      have hd1 := npDelete_inBounds (axes := ax1) (unravel_inBounds hj)
      constructor
      · intro e
        have e := ravel_inj (inBounds_append (inBounds_append hd0 hκ) hd1) hq e
        rw [List.append_assoc, List.append_assoc] at e
        obtain ⟨e0, e1⟩ := List.append_inj e (by rw [inBounds_length hd0, inBounds_length hρ0])
        obtain ⟨_, e2⟩ := List.append_inj e1 rfl
        rw [e0, e2, ← hρ]
        exact ravel_unravel hr
      · intro e
        have e' : npDelete ax0 (unravel s c) ++ npDelete ax1 (unravel t j) = ρ0 ++ ρ1 := by
          rw [← hρ, ← e]
          exact (unravel_ravel (inBounds_append hd0 hd1)).symm
        obtain ⟨e0, e1⟩ := List.append_inj e' (by rw [inBounds_length hd0, inBounds_length hρ0])
        rw [e0, e1]
    simp only [this]
  · intro i hi hne
    have hi := Finset.mem_range.1 hi
    apply List.sum_eq_zero
    intro x hx
    obtain ⟨j, hj, rfl⟩ := List.mem_map.1 hx
    have hj := List.mem_range.1 hj
    rw [if_neg]
    rintro ⟨_, e⟩
    unfold tensordotRow at e
    rw [hsh, unravel_append hi hi, h.del _ (unravel_length _ _)] at e
    have hd0 := npDelete_inBounds (axes := ax0) (unravel_inBounds hi)
    have hd1 := npDelete_inBounds (axes := ax1) (unravel_inBounds hj)
    have e := ravel_inj (inBounds_append (inBounds_append hd0 (unravel_inBounds hi)) hd1) hq e
    rw [List.append_assoc, List.append_assoc] at e
    obtain ⟨_, e1⟩ := List.append_inj e (by rw [inBounds_length hd0, inBounds_length hρ0])
    obtain ⟨e2, _⟩ := List.append_inj e1 (by rw [unravel_length, unravel_length])
    apply hne
    rw [← ravel_unravel hi, e2, ravel_unravel hc]

end OM
