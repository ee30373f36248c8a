import Mathlib.Algebra.Order.BigOperators.Ring.Finset
import Verif.Props.Inner

/-! # Inner products: for which axes the Jacobian is right (C38) -/

namespace OM
open Spec

theorem npDelete_map {α β : Type} (f : α → β) (axes : List Nat) (x : List α) :
    npDelete axes (x.map f) = (npDelete axes x).map f := by
  unfold npDelete
  rw [List.zipIdx_map, List.filter_map, List.map_map, List.map_map]
  rfl

theorem map_range_getD_self (x : List Nat) : (List.range x.length).map (fun k => x.getD k 0) = x := by
  apply List.ext_getElem (by simp)
  intro k h1 h2
  rw [List.getElem_map, List.getElem_range, List.getD_eq_getElem _ _ h2]

theorem npDelete_double (β x : List Nat) :
    npDelete β (x ++ x) =
      (npDelete β (List.range x.length ++ List.range x.length)).map fun k => x.getD k 0 := by
  rw [← npDelete_map, List.map_append, map_range_getD_self]

theorem zipIdx_range (r o : Nat) : (List.range r).zipIdx o = (List.range r).map fun k => (k, o + k) := by
  apply List.ext_getElem (by simp)
  intro k h1 h2
  simp

theorem npDelete_ranges (β : List Nat) (r : Nat) :
    npDelete β (List.range r ++ List.range r) =
      ((List.range r).filter fun k => k ∉ β) ++ (List.range r).filter fun k => r + k ∉ β := by
  unfold npDelete
  rw [List.zipIdx_append, List.filter_append, List.map_append, zipIdx_range, zipIdx_range, List.filter_map,
    List.filter_map, List.map_map, List.map_map]
  simp [Function.comp_def]

theorem ravel_ge {X Y x y : List Nat} {n v : Nat} (hx : InBounds X x) :
    v * prodShape Y ≤ ravel (X ++ n :: Y) (x ++ v :: y) := by
  rw [ravel_append hx]
  simp only [ravel]
  omega

theorem prod_map_range (r : Nat) (f : Nat → Nat) : ((List.range r).map f).prod = ∏ k ∈ Finset.range r, f k := by
  induction r with
  | zero => rfl
  | succ r ih => rw [List.range_succ, List.map_append, List.prod_append, ih, Finset.prod_range_succ]; simp

theorem prod_filter_map (l : List Nat) (p : Nat → Prop) [DecidablePred p] (f : Nat → Nat) :
    ((l.filter fun k => p k).map f).prod = (l.map fun k => if p k then f k else 1).prod := by
  induction l with
  | nil => rfl
  | cons a l ih => by_cases h : p a <;> simp [h, ih]

/-- The axes after `a` for which `p` holds. -/
theorem prod_after (r a : Nat) (ha : a < r) (p : Nat → Prop) [DecidablePred p] (f : Nat → Nat) :
    (((List.range' (a + 1) (r - (a + 1))).filter fun k => p k).map f).prod =
      ∏ k ∈ Finset.range r, if a < k ∧ p k then f k else 1 := by
  obtain ⟨m, rfl⟩ : ∃ m, r = a + 1 + m := ⟨r - (a + 1), by omega⟩
  rw [prod_filter_map, Finset.prod_range_add, Finset.prod_eq_one fun k hk => ?_, one_mul, ← prod_map_range,
    show a + 1 + m - (a + 1) = m by omega]
  · rw [List.range'_eq_map_range, List.map_map]
    refine congrArg List.prod (List.map_congr_left fun k _ => ?_)
    simp only [Function.comp_apply]
    by_cases h : p (a + 1 + k)
    · rw [if_pos h, if_pos ⟨by omega, h⟩]
    · rw [if_neg h, if_neg fun h' => h h'.2]
  · have := Finset.mem_range.1 hk
    rw [if_neg fun h' => by omega]

/-- If the axes are not `FrontOrAll`, some contracted axis is further from the end in the array of doubled rank than it
should be. -/
theorem weight_lt {r : Nat} {axes : List Int} {l t : List Nat} (hn : normAxes r axes = .ok l) (ht : t.length = r)
    (h2 : ∀ n ∈ t, 2 ≤ n) (h : ¬ FrontOrAll r axes) :
    ∃ a pre post, a < r ∧ a ∈ l ∧
      npDelete (resolveAxes (r + r) axes) (List.range r ++ List.range r) = pre ++ a :: post ∧
      prodShape (t.drop (a + 1)) < prodShape (post.map fun k => t.getD k 0) := by
  have hlt' := normAxes_lt hn
  obtain ⟨rfl, hlt, hnd, hge⟩ := normAxes_ok hn
  have hf : ∀ k < r, 2 ≤ t.getD k 0 := by
    intro k hk
    rw [List.getD_eq_getElem _ _ (by omega)]
    exact h2 _ (List.getElem_mem _)
  have hinj : ∀ k < r, ¬ ((k : Int) ∈ axes ∧ (k : Int) - r ∈ axes) := by
    rintro k hk ⟨h1, h2⟩
    have := List.inj_on_of_nodup_map hnd h1 h2 (by
      rw [if_neg (by omega), if_pos (by omega)]; omega)
    omega
  have hβ1 : ∀ k < r, (k ∉ resolveAxes (r + r) axes ↔ (k : Int) ∉ axes) := by
    intro k hk
    refine not_congr ⟨fun hn => ?_, fun h1 => List.mem_map.2 ⟨_, h1, by rw [if_neg (by omega)]; omega⟩⟩
    obtain ⟨a, ha, he⟩ := List.mem_map.1 hn
    have := hge a ha
    split at he
    · omega
    · rwa [show (k : Int) = a by omega]
  have hβ2 : ∀ k < r, (r + k ∉ resolveAxes (r + r) axes ↔ (k : Int) - r ∉ axes) := by
    intro k hk
    refine not_congr ⟨fun hn => ?_, fun h1 => List.mem_map.2 ⟨_, h1, by rw [if_pos (by omega)]; omega⟩⟩
    obtain ⟨a, ha, he⟩ := List.mem_map.1 hn
    have := hlt' a ha
    split at he
    · rwa [show (k : Int) - r = a by omega]
    · omega
  -- an axis given as a negative number, and one that is counted too often
  obtain ⟨a, k0, ha, hna, hk0, hne, hk2, hk1⟩ : ∃ a k0 : Nat, a < r ∧ (a : Int) - r ∈ axes ∧ k0 < r ∧ k0 ≠ a ∧
      (k0 : Int) - r ∉ axes ∧ (k0 < a ∨ (k0 : Int) ∉ axes) := by
    unfold FrontOrAll at h
    push Not at h
    obtain ⟨⟨a, ha, hneg⟩, h⟩ := h
    by_cases hlen : axes.length = r
    · obtain ⟨a, ha, b, hb, hneg, hpos, hle⟩ := h hlen
      have h1 := hge a ha
      have h3 := hlt' b hb
      have hbn : ¬ ((b.toNat : Int) - r ∈ axes) := fun h4 =>
        hinj b.toNat (by omega) ⟨by rwa [Int.toNat_of_nonneg hpos], h4⟩
      have haa : (((a + r).toNat : Nat) : Int) - r = a := by omega
      have hba : b.toNat ≠ (a + r).toNat := by
        intro e
        rw [e, haa] at hbn
        exact hbn ha
      exact ⟨(a + r).toNat, b.toNat, by omega, by rwa [haa], by omega, hba, hbn, .inl (by omega)⟩
    · have h1 := hge a ha
      have haa : (((a + r).toNat : Nat) : Int) - r = a := by omega
      obtain ⟨k0, hk0, hk0'⟩ : ∃ k0, k0 < r ∧ k0 ∉ resolveAxes r axes := by
        by_contra hall
        push Not at hall
        have hsub : List.range r ⊆ resolveAxes r axes := fun k hk => hall k (List.mem_range.1 hk)
        have h3 := (List.subperm_of_subset List.nodup_range hsub).length_le
        have hsub' : resolveAxes r axes ⊆ List.range r := fun k hk => List.mem_range.2 (hlt k hk)
        have h4 := (List.subperm_of_subset hnd hsub').length_le
        rw [resolveAxes, List.length_map, List.length_range] at h3 h4
        omega
      have hno : ∀ b ∈ axes, Int.toNat (if b < 0 then b + (r : Int) else b) ≠ k0 := fun b hb e =>
        hk0' (List.mem_map.2 ⟨b, hb, e⟩)
      refine ⟨(a + r).toNat, k0, by omega, by rwa [haa], hk0, ?_, fun hb => ?_, .inr fun hb => ?_⟩
      · intro e
        have := hno a ha
        rw [if_pos hneg] at this
        exact this e.symm
      · have := hno _ hb
        rw [if_pos (by omega)] at this
        omega
      · have := hno _ hb
        rw [if_neg (by omega)] at this
        omega
  have hA : (a : Int) ∉ axes := fun h1 => hinj a ha ⟨h1, hna⟩
  have hsplit : List.range r = List.range a ++ a :: List.range' (a + 1) (r - (a + 1)) := by
    obtain ⟨m, rfl⟩ : ∃ m, r = a + 1 + m := ⟨r - (a + 1), by omega⟩
    rw [List.range_eq_range', List.range_eq_range', show a + 1 + m - (a + 1) = m by omega,
      show a :: List.range' (a + 1) m = List.range' a (m + 1) from rfl]
    have h := List.range'_append_1 (s := 0) (m := a) (n := m + 1)
    rw [Nat.zero_add] at h
    rw [h]
    congr 1
    omega
  refine ⟨a, (List.range a).filter fun k => (k : Int) ∉ axes,
    ((List.range' (a + 1) (r - (a + 1))).filter fun (k : Nat) => (k : Int) ∉ axes) ++
      (List.range r).filter fun (k : Nat) => (k : Int) - r ∉ axes, ha, ?_, ?_, ?_⟩
  · exact List.mem_map.2 ⟨_, hna, by rw [if_pos (by omega)]; omega⟩
  · rw [npDelete_ranges, List.filter_congr (q := fun (k : Nat) => decide ((k : Int) ∉ axes))
        (fun k hk => decide_eq_decide.2 (hβ1 k (List.mem_range.1 hk))),
      List.filter_congr (q := fun (k : Nat) => decide ((k : Int) - r ∉ axes))
        (fun k hk => decide_eq_decide.2 (hβ2 k (List.mem_range.1 hk)))]
    rw [← List.cons_append, ← List.append_assoc]
    congr 1
    conv_lhs => rw [hsplit]
    rw [List.filter_append, List.filter_cons_of_pos (by simpa using hA)]
  · have e0 : prodShape (t.drop (a + 1)) = ∏ k ∈ Finset.range r, if a < k ∧ True then t.getD k 0 else 1 := by
      rw [← prod_after r a ha (fun _ => True) fun k => t.getD k 0]
      unfold prodShape
      congr 1
      rw [List.filter_eq_self.2 (by simp)]
      conv_lhs => rw [← map_range_getD_self t, ht, ← List.map_drop, hsplit]
      rw [show List.range a ++ a :: List.range' (a + 1) (r - (a + 1)) =
        (List.range a ++ [a]) ++ List.range' (a + 1) (r - (a + 1)) by simp, List.drop_left' (by simp)]
    rw [e0, List.map_append, prodShape_append]
    unfold prodShape
    rw [prod_after r a ha (fun k => (k : Int) ∉ axes), prod_filter_map, prod_map_range, ← Finset.prod_mul_distrib]
    refine Finset.prod_lt_prod (fun k hk => ?_) (fun k hk => ?_) ⟨k0, Finset.mem_range.2 hk0, ?_⟩
    · have := hf k (Finset.mem_range.1 hk)
      split <;> omega
    · have h3 := hf k (Finset.mem_range.1 hk)
      have h4 := hinj k (Finset.mem_range.1 hk)
      by_cases c1 : a < k
      · by_cases c2 : (k : Int) ∈ axes
        · rw [if_pos ⟨c1, trivial⟩, if_pos fun h5 => h4 ⟨c2, h5⟩]
          split <;> nlinarith
        · rw [if_pos ⟨c1, trivial⟩, if_pos ⟨c1, c2⟩]
          split <;> nlinarith
      · rw [if_neg fun h => c1 h.1, if_neg fun h => c1 h.1]
        split <;> omega
    · have h3 := hf k0 hk0
      rw [if_pos hk2]
      rcases hk1 with hk1 | hk1
      · rw [if_neg fun h => by omega, if_neg fun h => by omega]
        omega
      · by_cases c1 : a < k0
        · rw [if_pos ⟨c1, trivial⟩, if_pos ⟨c1, hk1⟩]
          nlinarith
        · rw [if_neg fun h => c1 h.1, if_neg fun h => c1 h.1]
          omega

theorem ravel_all_zero {s i : List Nat} (h : ∀ x ∈ i, x = 0) : ravel s i = 0 := by
  induction s generalizing i with
  | nil => cases i <;> rfl
  | cons n s ih =>
    cases i with
    | nil => rfl
    | cons x i =>
      simp only [ravel]
      rw [h x (by simp), ih fun y hy => h y (by simp [hy])]
      simp

/-- The index that is one along axis `a` and zero elsewhere. -/
def unitIdx (rank a : Nat) : List Nat := (List.range rank).map fun k => if k = a then 1 else 0

theorem unitIdx_getD {rank a k : Nat} (hk : k < rank) : (unitIdx rank a).getD k 0 = if k = a then 1 else 0 := by
  rw [List.getD_eq_getElem _ _ (by simpa [unitIdx] using hk)]
  simp [unitIdx]

theorem unitIdx_inBounds {s : List Nat} (h2 : ∀ n ∈ s, 2 ≤ n) (a : Nat) : InBounds s (unitIdx s.length a) := by
  unfold InBounds
  rw [List.forall₂_iff_get]
  refine ⟨by simp [unitIdx], fun i h1 h2' => ?_⟩
  have := h2 _ (List.getElem_mem h2')
  simp only [unitIdx, List.get_eq_getElem, List.getElem_map, List.getElem_range]
  split <;> omega

theorem ravel_unitIdx {s : List Nat} {a : Nat} (ha : a < s.length) :
    ravel s (unitIdx s.length a) = prodShape (s.drop (a + 1)) := by
  induction s generalizing a with
  | nil => simp at ha
  | cons n s ih =>
    have hcons : unitIdx (n :: s).length a = (if 0 = a then 1 else 0) ::
        (List.range s.length).map fun k => if k + 1 = a then 1 else 0 := by
      simp [unitIdx, List.range_succ_eq_map, Function.comp_def]
    rw [hcons]
    cases a with
    | zero =>
      simp only [ravel, if_true, List.drop_succ_cons, List.drop_zero, one_mul]
      rw [ravel_all_zero (by simp), Nat.add_zero]
    | succ a =>
      have : (List.range s.length).map (fun k => if k + 1 = a + 1 then 1 else 0) = unitIdx s.length a := by
        simp [unitIdx]
      rw [this]
      simp only [ravel]
      rw [if_neg (by omega), Nat.zero_mul, Nat.zero_add, List.drop_succ_cons]
      exact ih (by simpa using ha)

theorem npDelete_unitIdx {rank a : Nat} {l : List Nat} (h : a ∈ l) : ∀ x ∈ npDelete l (unitIdx rank a), x = 0 := by
  intro x hx
  rw [unitIdx, npDelete_map] at hx
  obtain ⟨k, hk, rfl⟩ := List.mem_map.1 hx
  refine if_neg ?_
  rintro rfl
  unfold npDelete at hk
  rw [zipIdx_range] at hk
  obtain ⟨p, hp, rfl⟩ := List.mem_map.1 hk
  obtain ⟨hp1, hp2⟩ := List.mem_filter.1 hp
  obtain ⟨k, -, rfl⟩ := List.mem_map.1 hp1
  simp at hp2
  exact hp2 h

/-- Two entries that are multiplied with each other: both indices are one along an axis of a contracted pair. -/
theorem unit_pair {s t l0 l1 : List Nat} (hs2 : ∀ n ∈ s, 2 ≤ n) (ht2 : ∀ n ∈ t, 2 ≤ n)
    (hlt0 : ∀ a ∈ l0, a < s.length) (hlt1 : ∀ a ∈ l1, a < t.length) (hnd0 : l0.Nodup) (hnd1 : l1.Nodup)
    (hlen : l0.length = l1.length) {k : Nat} (hk0 : k < l0.length) (hk1 : k < l1.length) :
    ravel s (unitIdx s.length l0[k]) < prodShape s ∧ ravel t (unitIdx t.length l1[k]) < prodShape t ∧
    contracted s l0 t l1 (ravel s (unitIdx s.length l0[k])) (ravel t (unitIdx t.length l1[k])) = true ∧
    tensordotRow s l0 t l1 (ravel s (unitIdx s.length l0[k])) (ravel t (unitIdx t.length l1[k])) = 0 := by
  have b0 := unitIdx_inBounds hs2 l0[k]
  have b1 := unitIdx_inBounds ht2 l1[k]
  refine ⟨ravel_lt b0, ravel_lt b1, ?_, ?_⟩
  · unfold contracted
    rw [unravel_ravel b0, unravel_ravel b1, decide_eq_true_iff]
    apply List.ext_getElem (by simpa using hlen)
    intro m h1 h2
    simp only [List.length_map] at h1 h2
    rw [List.getElem_map, List.getElem_map, unitIdx_getD (hlt0 _ (List.getElem_mem _)),
      unitIdx_getD (hlt1 _ (List.getElem_mem _))]
    simp only [hnd0.getElem_inj_iff, hnd1.getElem_inj_iff]
  · unfold tensordotRow
    rw [unravel_ravel b0, unravel_ravel b1]
    refine ravel_all_zero fun x hx => ?_
    rcases List.mem_append.1 hx with hx | hx
    · exact npDelete_unitIdx (List.getElem_mem _) x hx
    · exact npDelete_unitIdx (List.getElem_mem _) x hx

/-- The position of an index that is one along the axis found above is too large. -/
theorem double_pos {t J β pre post : List Nat} {a : Nat} (hJ : InBounds t J)
    (hβ : npDelete β (List.range t.length ++ List.range t.length) = pre ++ a :: post) (ha : J.getD a 0 = 1) :
    prodShape (post.map fun k => t.getD k 0) ≤ ravel (npDelete β (t ++ t)) (npDelete β (J ++ J)) := by
  have hb : InBounds (npDelete β (t ++ t)) (npDelete β (J ++ J)) := npDelete_inBounds (inBounds_append hJ hJ)
  have e1 := npDelete_double β t
  have e2 := npDelete_double β J
  rw [hβ, List.map_append, List.map_cons] at e1
  rw [inBounds_length hJ, hβ, List.map_append, List.map_cons, ha] at e2
  rw [e1, e2] at hb ⊢
  obtain ⟨i0, i1, he, h0, -⟩ := inBounds_append_iff hb
  obtain ⟨rfl, -⟩ := List.append_inj he (by rw [inBounds_length h0]; simp)
  have := ravel_ge (Y := post.map fun k => t.getD k 0) (n := t.getD a 0) (v := 1)
    (y := post.map fun k => J.getD k 0) h0
  rwa [one_mul] at this

/-- The partial by the second operand has a zero where it should not. -/
theorem part1_zero {s t l0 l1 : List Nat} {axes : List Int} (hs2 : ∀ n ∈ s, 2 ≤ n) (ht2 : ∀ n ∈ t, 2 ≤ n)
    (hlt0 : ∀ a ∈ l0, a < s.length) (hnd0 : l0.Nodup) (hlen : l0.length = l1.length)
    (hn : normAxes t.length axes = .ok l1) (h : ¬ FrontOrAll t.length axes) :
    ∃ i j, i < prodShape s ∧ j < prodShape t ∧ contracted s l0 t l1 i j = true ∧ tensordotRow s l0 t l1 i j = 0 ∧
      npTensordot s l0 (t ++ t) (resolveAxes (t.length + t.length) axes) (fun k => if k = i then 1 else 0)
        (npIdentity (prodShape t)) j = 0 := by
  obtain ⟨a, pre, post, ha, hal, hβ, hw⟩ := weight_lt hn rfl ht2 h
  have hget := resolve_get hn
  obtain ⟨-, hlt1, hnd1, -⟩ := normAxes_ok hn
  obtain ⟨k, hk1, rfl⟩ := List.getElem_of_mem hal
  have hk0 : k < l0.length := hlen ▸ hk1
  obtain ⟨hi, hj, hc, hrow⟩ := unit_pair hs2 ht2 hlt0 hlt1 hnd0 hnd1 hlen hk0 hk1
  refine ⟨_, _, hi, hj, hc, hrow, ?_⟩
  unfold npTensordot
  apply List.sum_eq_zero
  intro x hx
  obtain ⟨i, hi', rfl⟩ := List.mem_map.1 hx
  have hi' := List.mem_range.1 hi'
  have h1 : ∀ j, (if contracted s l0 (t ++ t) (resolveAxes (t.length + t.length) axes) i j = true ∧
      tensordotRow s l0 (t ++ t) (resolveAxes (t.length + t.length) axes) i j = ravel t (unitIdx t.length l1[k])
      then (if i = ravel s (unitIdx s.length l0[k]) then (1 : ℝ) else 0) * npIdentity (prodShape t) j else 0) =
      npIdentity (prodShape t) j * (if contracted s l0 (t ++ t) (resolveAxes (t.length + t.length) axes) i j = true ∧
        tensordotRow s l0 (t ++ t) (resolveAxes (t.length + t.length) axes) i j = ravel t (unitIdx t.length l1[k])
        then (if i = ravel s (unitIdx s.length l0[k]) then 1 else 0) else 0) := by
    intro j
    by_cases hP : contracted s l0 (t ++ t) (resolveAxes (t.length + t.length) axes) i j = true ∧
      tensordotRow s l0 (t ++ t) (resolveAxes (t.length + t.length) axes) i j = ravel t (unitIdx t.length l1[k])
    · rw [if_pos hP, if_pos hP, mul_comm]
    · rw [if_neg hP, if_neg hP, mul_zero]
  simp only [h1]
  rw [prodShape_append, npIdentity_sum]
  apply List.sum_eq_zero
  intro x hx
  obtain ⟨j, hj', rfl⟩ := List.mem_map.1 hx
  have hj' := List.mem_range.1 hj'
  by_cases hii : i = ravel s (unitIdx s.length l0[k])
  · rw [if_neg]
    rintro ⟨hc', hr'⟩
    rw [contracted_right hget hj'] at hc'
    subst hii
    unfold contracted at hc'
    rw [decide_eq_true_iff, unravel_ravel (unitIdx_inBounds hs2 _)] at hc'
    have hc' := congrArg (fun l => l[k]?) hc'
    simp only [List.getElem?_map, List.getElem?_eq_getElem hk0, List.getElem?_eq_getElem hk1, Option.map_some] at hc'
    rw [unitIdx_getD (hlt0 _ (List.getElem_mem _)), if_pos rfl] at hc'
    have hp := double_pos (unravel_inBounds hj') hβ (Option.some.inj hc').symm
    unfold tensordotRow tensordotShape at hr'
    rw [unravel_append hj' hj', ravel_append (npDelete_inBounds (unravel_inBounds hi')),
      ravel_unitIdx (hlt1 _ (List.getElem_mem _))] at hr'
    omega
  · rw [if_neg hii]
    split <;> rfl

/-- The partial by the first operand has a zero where it should not. -/
theorem part0_zero {s t l0 l1 : List Nat} {axes : List Int} (hs2 : ∀ n ∈ s, 2 ≤ n) (ht2 : ∀ n ∈ t, 2 ≤ n)
    (hlt1 : ∀ a ∈ l1, a < t.length) (hnd1 : l1.Nodup) (hlen : l0.length = l1.length)
    (hn : normAxes s.length axes = .ok l0) (h : ¬ FrontOrAll s.length axes) :
    ∃ i j, i < prodShape s ∧ j < prodShape t ∧ contracted s l0 t l1 i j = true ∧ tensordotRow s l0 t l1 i j = 0 ∧
      npTranspose (tensordotShape (s ++ s) (resolveAxes (s.length + s.length) axes) t l1)
        (permOf (npDelete l0 s).length s.length (npDelete l1 t).length)
        (npTensordot (s ++ s) (resolveAxes (s.length + s.length) axes) t l1 (npIdentity (prodShape s))
          fun k => if k = j then 1 else 0) i = 0 := by
  obtain ⟨a, pre, post, ha, hal, hβ, hw⟩ := weight_lt hn rfl hs2 h
  have hget := resolve_get hn
  have hltn := normAxes_lt hn
  obtain ⟨hl0, hlt0, hnd0, hge0⟩ := normAxes_ok hn
  obtain ⟨k, hk0, rfl⟩ := List.getElem_of_mem hal
  have hk1 : k < l1.length := hlen ▸ hk0
  obtain ⟨hi, hj, hc, hrow⟩ := unit_pair hs2 ht2 hlt0 hlt1 hnd0 hnd1 hlen hk0 hk1
  refine ⟨_, _, hi, hj, hc, hrow, ?_⟩
  set β := resolveAxes (s.length + s.length) axes with hβdef
  set U := npDelete β (s ++ s) with hU
  -- the number of axes that are left
  have hUlen : U.length = (npDelete l0 s).length + s.length := by
    have h1 := npDelete_length (l := s) hlt0 hnd0
    have hβlt : ∀ a ∈ β, a < (s ++ s).length := by
      intro b hb
      obtain ⟨x, hx, rfl⟩ := List.mem_map.1 hb
      have := hltn x hx
      have := hge0 x hx
      rw [List.length_append]
      split <;> omega
    have hβnd : β.Nodup := by
      rw [hβdef, resolveAxes]
      rw [hl0, resolveAxes] at hnd0
      refine List.Nodup.map_on ?_ (List.Nodup.of_map _ hnd0)
      intro x hx y hy e
      have := hltn x hx
      have := hge0 x hx
      have := hltn y hy
      have := hge0 y hy
      split at e <;> split at e <;> omega
    have h2 := npDelete_length hβlt hβnd
    rw [List.length_append] at h2
    have h3 : β.length = l0.length := by rw [hl0, hβdef, resolveAxes, resolveAxes, List.length_map, List.length_map]
    rw [hU]
    omega
  obtain ⟨U1, U2, hU12, hU1⟩ : ∃ U1 U2, U = U1 ++ U2 ∧ U1.length = (npDelete l0 s).length :=
    ⟨U.take (npDelete l0 s).length, U.drop (npDelete l0 s).length, (List.take_append_drop _ _).symm, by
      rw [List.length_take]; omega⟩
  have hU2 : U2.length = s.length := by
    have := congrArg List.length hU12
    rw [List.length_append] at this
    omega
  have hpos : ∀ n ∈ npDelete l1 t, 0 < n := by
    intro n hn
    have := ht2 n (by
      unfold npDelete at hn
      obtain ⟨p, hp, rfl⟩ := List.mem_map.1 hn
      exact (List.mem_zipIdx_iff_getElem?.1 (List.mem_filter.1 hp).1) |> fun h => List.mem_of_getElem? h)
    omega
  have hR1 : 0 < prodShape (npDelete l1 t) := List.prod_pos hpos
  unfold npTranspose
  have hsh : tensordotShape (s ++ s) β t l1 = U1 ++ U2 ++ npDelete l1 t := by
    rw [tensordotShape, ← hU, hU12]
  have hpm : permOf (npDelete l0 s).length s.length (npDelete l1 t).length =
      permOf U1.length U2.length (npDelete l1 t).length := by rw [hU1, hU2]
  rw [hsh, hpm, permOf_map]
  simp only
  -- the index in the array before it is transposed
  have hilt : ravel s (unitIdx s.length l0[k]) < prodShape (U1 ++ npDelete l1 t ++ U2) := by
    have h1 : prodShape (U1 ++ npDelete l1 t ++ U2) = prodShape U * prodShape (npDelete l1 t) := by
      rw [hU12, prodShape_append, prodShape_append, prodShape_append]; ring
    have h2 := double_pos (unitIdx_inBounds hs2 l0[k]) hβ (by
      rw [unitIdx_getD (hlt0 _ (List.getElem_mem _)), if_pos rfl])
    have h3 := ravel_lt (npDelete_inBounds (axes := β) (inBounds_append (unitIdx_inBounds hs2 l0[k])
      (unitIdx_inBounds hs2 l0[k])))
    rw [ravel_unitIdx (hlt0 _ (List.getElem_mem _)), h1]
    have h4 : prodShape U ≤ prodShape U * prodShape (npDelete l1 t) := Nat.le_mul_of_pos_right _ hR1
    rw [← hU] at h2 h3
    omega
  obtain ⟨ρ, ρ2, hρ, hb, hb2⟩ := inBounds_append_iff (unravel_inBounds hilt)
  obtain ⟨ρ1, z, rfl, hb1, hbz⟩ := inBounds_append_iff hb
  rw [hρ]
  have hperm := permOf_inverse ρ1 ρ2 z
  rw [inBounds_length hb1, inBounds_length hb2, inBounds_length hbz] at hperm
  rw [List.length_append, List.length_append, hperm]
  have hpos' := ravel_unravel hilt
  rw [hρ] at hpos'
  unfold npTensordot
  have h1 : ∀ i, ((List.range (prodShape t)).map fun j =>
      if contracted (s ++ s) β t l1 i j = true ∧ tensordotRow (s ++ s) β t l1 i j =
        ravel (U1 ++ U2 ++ npDelete l1 t) (ρ1 ++ ρ2 ++ z)
      then npIdentity (prodShape s) i * (if j = ravel t (unitIdx t.length l1[k]) then (1 : ℝ) else 0) else 0).sum =
      npIdentity (prodShape s) i * ((List.range (prodShape t)).map fun j =>
        if contracted (s ++ s) β t l1 i j = true ∧ tensordotRow (s ++ s) β t l1 i j =
          ravel (U1 ++ U2 ++ npDelete l1 t) (ρ1 ++ ρ2 ++ z)
        then (if j = ravel t (unitIdx t.length l1[k]) then (1 : ℝ) else 0) else 0).sum := by
    intro i
    rw [← List.sum_map_mul_left]
    congr 1
    apply List.map_congr_left
    intro j _
    by_cases hP : contracted (s ++ s) β t l1 i j = true ∧ tensordotRow (s ++ s) β t l1 i j =
        ravel (U1 ++ U2 ++ npDelete l1 t) (ρ1 ++ ρ2 ++ z)
    · rw [if_pos hP, if_pos hP]
    · rw [if_neg hP, if_neg hP, mul_zero]
  simp only [h1]
  rw [prodShape_append, npIdentity_sum]
  apply List.sum_eq_zero
  intro x hx
  obtain ⟨i, hi', rfl⟩ := List.mem_map.1 hx
  have hi' := List.mem_range.1 hi'
  apply List.sum_eq_zero
  intro x hx
  obtain ⟨j, hj', rfl⟩ := List.mem_map.1 hx
  have hj' := List.mem_range.1 hj'
  by_cases hjj : j = ravel t (unitIdx t.length l1[k])
  · rw [if_neg]
    rintro ⟨hc', hr'⟩
    rw [contracted_left hget hi'] at hc'
    subst hjj
    unfold contracted at hc'
    rw [decide_eq_true_iff, unravel_ravel (unitIdx_inBounds ht2 _)] at hc'
    have hc' := congrArg (fun l => l[k]?) hc'
    simp only [List.getElem?_map, List.getElem?_eq_getElem hk0, List.getElem?_eq_getElem hk1, Option.map_some] at hc'
    rw [unitIdx_getD (hlt1 _ (List.getElem_mem _)), if_pos rfl] at hc'
    have hp := double_pos (unravel_inBounds hi') hβ (Option.some.inj hc')
    unfold tensordotRow at hr'
    rw [hsh, unravel_append hi' hi'] at hr'
    have hd := npDelete_inBounds (axes := β) (inBounds_append (unravel_inBounds hi') (unravel_inBounds hi'))
    rw [← hU, hU12] at hd
    have e := ravel_inj (inBounds_append hd (npDelete_inBounds (unravel_inBounds hj')))
      (inBounds_append (inBounds_append hb1 hb2) hbz) hr'
    obtain ⟨e1, -⟩ := List.append_inj e (by
      rw [inBounds_length hd, List.length_append, List.length_append, inBounds_length hb1, inBounds_length hb2])
    rw [e1, ← hU, hU12, ravel_append hb1] at hp
    rw [ravel_append (inBounds_append hb1 hbz), ravel_append hb1,
      ravel_unitIdx (hlt0 _ (List.getElem_mem _))] at hpos'
    have h5 : ravel U1 ρ1 * prodShape U2 ≤ ravel U1 ρ1 * prodShape (npDelete l1 t) * prodShape U2 :=
      Nat.mul_le_mul_right _ (Nat.le_mul_of_pos_right _ hR1)
    have h6 : (ravel U1 ρ1 * prodShape (npDelete l1 t) + ravel (npDelete l1 t) z) * prodShape U2 =
        ravel U1 ρ1 * prodShape (npDelete l1 t) * prodShape U2 + ravel (npDelete l1 t) z * prodShape U2 := by ring
    omega
  · rw [if_neg hjj]
    split <;> rfl

/-- Exact partials are unique. -/
theorem exactPartials_entry {ins : List (String × Nat)} {n : Nat} {f : (String → Nat → ℝ) → Nat → ℝ}
    {P P' : String → Coo} {inp : String → Nat → ℝ} (h : ExactPartials ins n f P inp)
    (h' : ExactPartials ins n f P' inp) {nm : String} {N : Nat} (hm : (nm, N) ∈ ins) {i k : Nat} (hi : i < n)
    (hk : k < N) : entry (P nm) i k = entry (P' nm) i k := by
  obtain ⟨m, hm', he⟩ := List.getElem_of_mem hm
  have e := (h.jac ⟨i, hi⟩).unique (h'.jac ⟨i, hi⟩)
  have hk' : k < (ins[(⟨m, hm'⟩ : Fin ins.length)]).2 := by simp [he, hk]
  have e := congrArg (fun L => L (Pi.single (⟨⟨m, hm'⟩, ⟨k, hk'⟩⟩ : Slot ins) 1)) e
  simpa [Pi.single_apply, he] using e

theorem denseCoo_entry {M N : Nat} (f : Nat → ℝ) {i k : Nat} (hi : i < M) (hk : k < N) :
    entry (denseCoo M N f) i k = f (i * N + k) := by
  have h := denseCoo_apply (N := N) f (fun j => if j = k then 1 else 0) hi
  have h1 : entry (denseCoo M N f) i k = (denseCoo M N f).apply (fun j => if j = k then 1 else 0) i := by
    unfold Coo.apply cooApply entry cooEntry
    congr 1
    apply List.map_congr_left
    intro p _
    by_cases h1 : p.1 = i <;> by_cases h2 : p.2.1 = k <;> simp [h1, h2]
  rw [h1, h, sum_map_range, Finset.sum_eq_single k]
  · simp
  · intro j _ hj; rw [if_neg hj, mul_zero]
  · intro h; simp at h; omega

/-- A sum with one term. -/
theorem sum_range_indicator {N j : Nat} (hj : j < N) {p : Nat → Prop} [DecidablePred p] (hp : p j) :
    ((List.range N).map fun k => if p k then (if k = j then (1 : ℝ) else 0) else 0).sum = 1 := by
  rw [sum_map_range, Finset.sum_eq_single j]
  · rw [if_pos hp, if_pos rfl]
  · intro k _ hk; rw [if_neg hk]; split <;> rfl
  · intro h; simp at h; omega

/-- **C38** in full for operands without axes of length zero or one: the declared Jacobians of the tensor product are exact
at all inputs if and only if the numbers of the axes of each operand are all nonnegative, or all axes of the operand are contracted and
those given by negative numbers are the first axes of the operand. -/
theorem c38_inner_partials_exactly {n0 n1 : String} {s t : List Nat} {a0 a1 : List Int} {c : TensorInner}
    (ho : stdInner n0 s n1 t (some (a0, a1)) = .ok (.inr c)) (hs : c.setup = .ok ()) (h2 : ∀ n ∈ s ++ t, 2 ≤ n) :
    (∀ inp, ExactPartials c.ins (prodShape c.outShape) c.compute (c.partials inp) inp) ↔
      FrontOrAll s.length a0 ∧ FrontOrAll t.length a1 := by
  refine ⟨fun h => ?_, fun h inp => c38_inner_partials_partial ho hs h.1 h.2 inp⟩
  rcases stdInner_ok ho with ⟨n, _, _, he⟩ | ⟨a0', a1', l0, l1, ha, hl0, hl1, hd, he⟩
  · cases he
  obtain ⟨rfl, rfl⟩ := Prod.mk.inj (Option.some.inj ha)
  obtain rfl := Sum.inr.inj he
  have hne : n0 ≠ n1 := setup2_ok hs
  have hs2 : ∀ n ∈ s, 2 ≤ n := fun n hn => h2 n (by simp [hn])
  have ht2 : ∀ n ∈ t, 2 ≤ n := fun n hn => h2 n (by simp [hn])
  obtain ⟨e0, hlt0, hnd0, -⟩ := normAxes_ok hl0
  obtain ⟨e1, hlt1, hnd1, -⟩ := normAxes_ok hl1
  have hlen : l0.length = l1.length := by simpa using congrArg List.length hd
  -- the same product with all axes counted from the front
  have hnat : ∀ (r : Nat) (l : List Nat), (∀ a ∈ l, a < r) → l.Nodup →
      normAxes r (l.map Int.ofNat) = .ok l ∧ ∀ R, resolveAxes R (l.map Int.ofNat) = l := by
    intro r l hl hnd
    refine ⟨normAxes_iff.2 ⟨hnd, ?_⟩, fun R => ?_⟩
    · rw [List.forall₂_map_left_iff, List.forall₂_same]
      intro a ha
      exact ⟨hl a ha, .inl rfl⟩
    · unfold resolveAxes
      rw [List.map_map]
      conv_rhs => rw [← List.map_id l]
      apply List.map_congr_left
      intro a _
      simp only [Function.comp_apply, id_eq]
      rw [if_neg (by simp)]
      rfl
  obtain ⟨hf0, hr0⟩ := hnat _ _ hlt0 hnd0
  obtain ⟨hf1, hr1⟩ := hnat _ _ hlt1 hnd1
  have hF : ∀ (r : Nat) (l : List Nat), FrontOrAll r (l.map Int.ofNat) := by
    intro r l
    left
    intro a ha
    obtain ⟨k, -, rfl⟩ := List.mem_map.1 ha
    exact Int.natCast_nonneg k
  have hx := tensorInner_exact (c := ⟨n0, n1, s, t, l0.map Int.ofNat, l1.map Int.ofNat⟩) hne hf0 hf1 hd (hF _ _) (hF _ _)
  have ho1 : TensorInner.outShape ⟨n0, n1, s, t, a0, a1⟩ = tensordotShape s l0 t l1 := by
    simp only [TensorInner.outShape, TensorInner.rem0, TensorInner.rem1, ← e0, ← e1, tensordotShape]
  have ho2 : TensorInner.outShape ⟨n0, n1, s, t, l0.map Int.ofNat, l1.map Int.ofNat⟩ = tensordotShape s l0 t l1 := by
    simp only [TensorInner.outShape, TensorInner.rem0, TensorInner.rem1, hr0, hr1, tensordotShape]
  have hcomp : TensorInner.compute ⟨n0, n1, s, t, l0.map Int.ofNat, l1.map Int.ofNat⟩ =
      TensorInner.compute ⟨n0, n1, s, t, a0, a1⟩ := by
    funext inp
    simp only [TensorInner.compute, hr0, hr1, ← e0, ← e1]
  have hins : ∀ b0 b1, TensorInner.ins ⟨n0, n1, s, t, b0, b1⟩ = [(n0, prodShape s), (n1, prodShape t)] := fun _ _ => rfl
  rw [ho1, hins] at h
  rw [ho2, hcomp, hins] at hx
  have hout : 0 < prodShape (tensordotShape s l0 t l1) := by
    unfold tensordotShape
    rw [prodShape_append]
    have hdel : ∀ l x : List Nat, (∀ n ∈ x, 2 ≤ n) → 0 < prodShape (npDelete l x) := by
      intro l x hx
      refine List.prod_pos fun n hn => ?_
      unfold npDelete at hn
      obtain ⟨p, hp, rfl⟩ := List.mem_map.1 hn
      have := hx p.1 (List.mem_of_getElem? (List.mem_zipIdx_iff_getElem?.1 (List.mem_filter.1 hp).1))
      omega
    exact Nat.mul_pos (hdel _ _ hs2) (hdel _ _ ht2)
  have q0 : ∀ b0 b1 inp, TensorInner.outShape ⟨n0, n1, s, t, b0, b1⟩ = tensordotShape s l0 t l1 →
      TensorInner.partials ⟨n0, n1, s, t, b0, b1⟩ inp n0 = denseCoo (prodShape (tensordotShape s l0 t l1)) (prodShape s)
        (TensorInner.part0 ⟨n0, n1, s, t, b0, b1⟩ (inp n1)) := by
    intro b0 b1 inp hb
    rw [TensorInner.partials, if_pos rfl, hb]; rfl
  have q1 : ∀ b0 b1 inp, TensorInner.outShape ⟨n0, n1, s, t, b0, b1⟩ = tensordotShape s l0 t l1 →
      TensorInner.partials ⟨n0, n1, s, t, b0, b1⟩ inp n1 = denseCoo (prodShape (tensordotShape s l0 t l1)) (prodShape t)
        (TensorInner.part1 ⟨n0, n1, s, t, b0, b1⟩ (inp n0)) := by
    intro b0 b1 inp hb
    rw [TensorInner.partials, if_neg hne.symm, hb]; rfl
  have hperm : ∀ b0 b1, resolveAxes s.length b0 = l0 → TensorInner.perm ⟨n0, n1, s, t, b0, b1⟩ =
      permOf (npDelete l0 s).length s.length (npDelete l1 t).length := by
    intro b0 b1 hb
    have hd0 := npDelete_length (l := s) hlt0 hnd0
    have hd1 := npDelete_length (l := t) hlt1 hnd1
    unfold TensorInner.perm permOf TensorInner.rem0
    simp only [hb]
    congr 2
    · congr 1; omega
    · omega
  constructor
  · by_contra hF0
    obtain ⟨i, j, hi, hj, hc, hrow, hz⟩ := part0_zero hs2 ht2 hlt1 hnd1 hlen hl0 hF0
    have e := exactPartials_entry (h fun _ k => if k = j then 1 else 0) (hx fun _ k => if k = j then 1 else 0)
      (nm := n0) (N := prodShape s) (by simp) hout hi
    rw [q0 _ _ _ ho1, q0 _ _ _ ho2, denseCoo_entry _ hout hi, denseCoo_entry _ hout hi] at e
    unfold TensorInner.part0 at e
    rw [hperm _ _ e0.symm, hperm _ _ (hr0 _)] at e
    simp only [← e1, hr0, hr1, List.length_append, TensorInner.size0] at e
    rw [tensordot_identity_left (doubles_self hlt0) _ hi hout, Nat.zero_mul, Nat.zero_add] at e
    have := sum_range_indicator hj (p := fun j => contracted s l0 t l1 i j = true ∧ tensordotRow s l0 t l1 i j = 0)
      ⟨hc, hrow⟩
    rw [this] at e
    exact zero_ne_one (hz.symm.trans e)
  · by_contra hF1
    obtain ⟨i, j, hi, hj, hc, hrow, hz⟩ := part1_zero hs2 ht2 hlt0 hnd0 hlen hl1 hF1
    have e := exactPartials_entry (h fun _ k => if k = i then 1 else 0) (hx fun _ k => if k = i then 1 else 0)
      (nm := n1) (N := prodShape t) (by simp) hout hj
    rw [q1 _ _ _ ho1, q1 _ _ _ ho2, denseCoo_entry _ hout hj, denseCoo_entry _ hout hj] at e
    unfold TensorInner.part1 at e
    simp only [← e0, hr0, hr1, List.length_append, TensorInner.size1] at e
    rw [tensordot_identity_right (doubles_self hlt1) _ hj, Nat.zero_mul, Nat.zero_add] at e
    have := sum_range_indicator hi (p := fun i => contracted s l0 t l1 i j = true ∧ tensordotRow s l0 t l1 i j = 0)
      ⟨hc, hrow⟩
    rw [this] at e
    exact zero_ne_one (hz.symm.trans e)

example : (∃ c, stdInner "a" [2, 3] "b" [3, 2] (some ([-2, 1], [1, 0])) = .ok (.inr c) ∧ c.setup = .ok ()) ∧
    (∀ n ∈ [2, 3] ++ [3, 2], 2 ≤ n) ∧ FrontOrAll [2, 3].length [-2, 1] ∧ ¬ FrontOrAll [2, 3].length [0, -1] :=
  ⟨⟨_, rfl, rfl⟩, by decide, by unfold FrontOrAll; decide, by unfold FrontOrAll; decide⟩

end OM
