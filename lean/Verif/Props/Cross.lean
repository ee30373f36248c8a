import Verif.Model.Cross
import Verif.Lemmas.Tensordot
import Verif.Props.Inner

/-! # Cross products (C39) -/

namespace OM
open Spec

theorem filter_unique {α : Type} [DecidableEq α] {l : List α} (hnd : l.Nodup) {p : α → Bool} {a : α}
    (ha : a ∈ l) (h : ∀ x ∈ l, p x = true ↔ x = a) : l.filter p = [a] := by
  have h1 : l.filter p = l.filter (· == a) := by
    apply List.filter_congr
    intro x hx
    rw [Bool.eq_iff_iff, h x hx, beq_iff_eq]
  rw [h1, List.filter_beq, hnd.count, if_pos ha]
  rfl

/-- The shape around the axis. -/
theorem Cross.split {c : Cross} (h3 : c.shape[c.axis]? = some 3) :
    c.shape = c.shape.take c.axis ++ 3 :: c.shape.drop (c.axis + 1) := by
  have hlt : c.axis < c.shape.length := (List.getElem?_eq_some_iff.1 h3).1
  have hv : c.shape[c.axis] = 3 := (List.getElem?_eq_some_iff.1 h3).2
  conv_lhs => rw [← List.take_append_drop c.axis c.shape]
  rw [List.drop_eq_getElem_cons hlt, hv]

theorem cross_pos {c : Cross} {pre post i j : List Nat} (hs : c.shape = pre ++ 3 :: post)
    (ha : c.axis = pre.length) (hi : InBounds pre i) (p : Nat) :
    c.pos (i ++ j) p = (ravel pre i * 3 + p) * prodShape post + ravel post j := by
  have hl : c.axis = i.length := by rw [ha, inBounds_length hi]
  unfold Cross.pos
  rw [hl, List.take_left', List.drop_left', hs, ravel_append hi]
  · simp only [ravel, prodShape_cons]
    ring
  · rfl
  · rfl

/-- Entries, with the flat positions of the two groups of axes. -/
theorem cross_entries {c : Cross} {pre post : List Nat} (hs : c.shape = pre ++ 3 :: post)
    (ha : c.axis = pre.length) :
    c.entries = (pairs (prodShape pre) (prodShape post)).flatMap fun u =>
      (List.range 3).flatMap fun y => (List.range 3).map fun z =>
        (unravel pre u.1 ++ unravel post u.2, y, z) := by
  unfold Cross.entries Cross.base
  rw [cartesian_range, hs, ha, List.take_left' rfl, List.flatMap_map]
  rw [show (pre ++ 3 :: post).drop (pre.length + 1) = post by
    rw [← List.drop_drop, List.drop_left' rfl]; rfl]
  rw [prodShape_append, range_pairs, List.flatMap_map]
  apply List.flatMap_congr
  intro u hu
  obtain ⟨h1, h2⟩ := mem_pairs.1 hu
  rw [unravel_append h1 h2]

/-- The Levi-Civita symbol. -/
def eps (p m n : Nat) : ℝ :=
  match p, m, n with
  | 0, 1, 2 => 1 | 0, 2, 1 => -1
  | 1, 2, 0 => 1 | 1, 0, 2 => -1
  | 2, 0, 1 => 1 | 2, 1, 0 => -1
  | _, _, _ => 0

theorem cross3_eps (a b : Nat → ℝ) {p : Nat} (hp : p < 3) :
    cross3 a b p = ((List.range 9).map fun k => eps p (k / 3) (k % 3) * (a (k / 3) * b (k % 3))).sum := by
  match p, hp with
  | 0, _ => simp [cross3, List.range_succ, eps]; ring
  | 1, _ => simp [cross3, List.range_succ, eps]; ring
  | 2, _ => simp [cross3, List.range_succ, eps]; ring

theorem cross3_left (b y : Nat → ℝ) {p : Nat} (hp : p < 3) :
    ((List.range 3).map fun q => ((List.range 3).map fun ind =>
      cross3 (eye3 ind) b p * eye3 ind q).sum * y q).sum = cross3 y b p := by
  match p, hp with
  | 0, _ => simp [cross3, List.range_succ, eye3]; ring
  | 1, _ => simp [cross3, List.range_succ, eye3]; ring
  | 2, _ => simp [cross3, List.range_succ, eye3]; ring

theorem cross3_right (a y : Nat → ℝ) {p : Nat} (hp : p < 3) :
    ((List.range 3).map fun q => ((List.range 3).map fun ind =>
      cross3 a (eye3 ind) p * eye3 ind q).sum * y q).sum = cross3 a y p := by
  match p, hp with
  | 0, _ => simp [cross3, List.range_succ, eye3]; ring
  | 1, _ => simp [cross3, List.range_succ, eye3]; ring
  | 2, _ => simp [cross3, List.range_succ, eye3]; ring

/-- Position of component `p` of the vector at `(i, j)`. -/
def crossAt (Q i p j : Nat) : Nat := (i * 3 + p) * Q + j

theorem crossAt_lt {P Q i p j : Nat} (hi : i < P) (hp : p < 3) (hj : j < Q) :
    crossAt Q i p j < P * (3 * Q) := by
  unfold crossAt
  calc (i * 3 + p) * Q + j < (i * 3 + p + 1) * Q := by rw [Nat.add_mul _ 1]; omega
    _ ≤ (P * 3) * Q := Nat.mul_le_mul_right _ (by omega)
    _ = P * (3 * Q) := by ring

theorem crossAt_inj {Q i p j i' p' j' : Nat} (hp : p < 3) (hj : j < Q) (hp' : p' < 3) (hj' : j' < Q)
    (h : crossAt Q i p j = crossAt Q i' p' j') : i = i' ∧ p = p' ∧ j = j' := by
  unfold crossAt at h
  have h1 := congrArg (· % Q) h
  have h2 := congrArg (· / Q) h
  simp only [mul_add_mod_lt hj, mul_add_mod_lt hj', mul_add_div_lt hj, mul_add_div_lt hj'] at h1 h2
  omega

theorem cross_surj {P Q r : Nat} (hr : r < P * (3 * Q)) :
    ∃ i p j, i < P ∧ p < 3 ∧ j < Q ∧ r = crossAt Q i p j := by
  have hQ : 0 < Q := by
    rcases Nat.eq_zero_or_pos Q with h | h
    · subst h; simp at hr
    · exact h
  refine ⟨r / Q / 3, r / Q % 3, r % Q, ?_, Nat.mod_lt _ (by omega), Nat.mod_lt _ hQ, ?_⟩
  · rw [Nat.div_div_eq_div_mul]
    apply Nat.div_lt_of_lt_mul
    calc r < P * (3 * Q) := hr
      _ = Q * 3 * P := by ring
  · unfold crossAt
    rw [Nat.div_add_mod' (r / Q) 3, Nat.div_add_mod' r Q]

section
variable {c : Cross} {pre post : List Nat} (hs : c.shape = pre ++ 3 :: post) (ha : c.axis = pre.length)
include hs ha

omit ha in
theorem cross_size : c.size = prodShape pre * (3 * prodShape post) := by
  rw [Cross.size, hs, prodShape_append, prodShape_cons]

theorem cross_pos_flat {i j : Nat} (hi : i < prodShape pre) (hj : j < prodShape post) (p : Nat) :
    c.pos (unravel pre i ++ unravel post j) p = crossAt (prodShape post) i p j := by
  rw [cross_pos hs ha (unravel_inBounds hi), ravel_unravel hi, ravel_unravel hj]; rfl

theorem cross_compute_flat (inp : String → Nat → ℝ) {i p j : Nat} (hi : i < prodShape pre) (hp : p < 3)
    (hj : j < prodShape post) :
    c.compute inp (crossAt (prodShape post) i p j) =
      cross3 (fun m => inp c.n0 (crossAt (prodShape post) i m j))
        (fun m => inp c.n1 (crossAt (prodShape post) i m j)) p := by
  have hin : InBounds (pre ++ 3 :: post) (unravel pre i ++ p :: unravel post j) :=
    inBounds_append (unravel_inBounds hi) (.cons hp (unravel_inBounds hj))
  have hrv : ravel (pre ++ 3 :: post) (unravel pre i ++ p :: unravel post j) =
      crossAt (prodShape post) i p j := by
    rw [ravel_append (unravel_inBounds hi), ravel_unravel hi]
    simp only [ravel, ravel_unravel hj, prodShape_cons, crossAt]
    ring
  have hun : unravel c.shape (crossAt (prodShape post) i p j) = unravel pre i ++ p :: unravel post j := by
    rw [hs, ← hrv, unravel_ravel hin]
  have hl : c.axis = (unravel pre i).length := by rw [ha, unravel_length]
  have h1 : (unravel pre i ++ p :: unravel post j).take c.axis = unravel pre i := by
    rw [hl, List.take_left' rfl]
  have h2 : (unravel pre i ++ p :: unravel post j).drop (c.axis + 1) = unravel post j := by
    rw [hl, ← List.drop_drop, List.drop_left' rfl]; rfl
  have h3 : (unravel pre i ++ p :: unravel post j).getD c.axis 0 = p := by
    rw [hl, List.getD_eq_getElem?_getD, List.getElem?_append_right (le_refl _)]; simp
  unfold Cross.compute
  simp only [hun, h1, h2, h3, cross_pos_flat hs ha hi hj]

theorem cross_rows (hl : c.label = c.axis) :
    c.rows = c.entries.map (fun t => c.pos t.1 t.2.1) ∧ c.cols = c.entries.map fun t => c.pos t.1 t.2.2 := by
  have h3 : c.shape.getD c.label 0 = 3 := by rw [hl, ha, hs]; simp
  have hat : c.at = c.pos := by
    funext idx y
    rw [Cross.at, Cross.pos, hl]
  constructor
  · unfold Cross.rows Cross.entries Cross.others Cross.base
    rw [h3, hat, hl]
    simp [List.map_flatMap, Function.comp_def]
  · unfold Cross.cols Cross.entries Cross.others Cross.base
    rw [h3, hat, hl]
    simp [List.map_flatMap, Function.comp_def]

theorem cross_apply (hl : c.label = c.axis) {name : String} {inp : String → Nat → ℝ} {f : List Nat → Nat → Nat → ℝ}
    (hpart : c.partials inp name = ⟨c.rows, c.cols, c.entries.map fun t => f t.1 t.2.1 t.2.2⟩)
    (y : Nat → ℝ) {i p j : Nat} (hi : i < prodShape pre) (hp : p < 3) (hj : j < prodShape post) :
    (c.partials inp name).apply y (crossAt (prodShape post) i p j) =
      ((List.range 3).map fun q => f (unravel pre i ++ unravel post j) p q *
        y (crossAt (prodShape post) i q j)).sum := by
  rw [Coo.apply, hpart]
  rw [(cross_rows hs ha hl).1, (cross_rows hs ha hl).2]
  rw [cooApply_map, cross_entries hs ha]
  -- the entries as a list over (vector, component) pairs
  have e1 : ((pairs (prodShape pre) (prodShape post)).flatMap fun u =>
      (List.range 3).flatMap fun y => (List.range 3).map fun z =>
        (unravel pre u.1 ++ unravel post u.2, y, z)) =
      (((pairs (prodShape pre) (prodShape post)).flatMap fun u => (List.range 3).map fun y => (u, y))).flatMap
        fun v => (List.range 3).map fun z => (unravel pre v.1.1 ++ unravel post v.1.2, v.2, z) := by
    rw [List.flatMap_assoc]
    apply List.flatMap_congr
    intro u _
    rw [List.flatMap_map]
  rw [e1, List.filter_flatMap, List.map_flatMap]
  set V := (pairs (prodShape pre) (prodShape post)).flatMap fun u => (List.range 3).map fun y => (u, y)
    with hV
  have hVmem : ∀ v ∈ V, v.1.1 < prodShape pre ∧ v.1.2 < prodShape post ∧ v.2 < 3 := by
    intro v hv
    rw [hV, List.mem_flatMap] at hv
    obtain ⟨u, hu, hv⟩ := hv
    obtain ⟨y, hy, rfl⟩ := List.mem_map.1 hv
    exact ⟨(mem_pairs.1 hu).1, (mem_pairs.1 hu).2, List.mem_range.1 hy⟩
  have hsum : ∀ v ∈ V, ((List.filter (fun t : List Nat × Nat × Nat =>
        decide (c.pos t.1 t.2.1 = crossAt (prodShape post) i p j))
        ((List.range 3).map fun z => (unravel pre v.1.1 ++ unravel post v.1.2, v.2, z))).map
          fun t => f t.1 t.2.1 t.2.2 * y (c.pos t.1 t.2.2)) =
      if v = ((i, j), p) then (List.range 3).map fun q => f (unravel pre i ++ unravel post j) p q *
        y (crossAt (prodShape post) i q j) else [] := by
    rintro ⟨⟨i', j'⟩, p'⟩ hv
    obtain ⟨h1, h2, h3⟩ := hVmem _ hv
    simp only at h1 h2 h3 ⊢
    by_cases he : (((i', j'), p') : (Nat × Nat) × Nat) = ((i, j), p)
    · rw [if_pos he]
      simp only [Prod.mk.injEq] at he
      obtain ⟨⟨rfl, rfl⟩, rfl⟩ := he
      rw [List.filter_eq_self.2, List.map_map]
      · apply List.map_congr_left
        intro q _
        simp only [Function.comp_apply, cross_pos_flat hs ha h1 h2]
      · intro t ht
        obtain ⟨z, _, rfl⟩ := List.mem_map.1 ht
        simp only [cross_pos_flat hs ha h1 h2, decide_true]
    · rw [if_neg he, List.filter_eq_nil_iff.2]
      · rfl
      · intro t ht
        obtain ⟨z, _, rfl⟩ := List.mem_map.1 ht
        simp only [cross_pos_flat hs ha h1 h2, decide_eq_true_eq]
        intro e
        obtain ⟨rfl, rfl, rfl⟩ := crossAt_inj h3 h2 hp hj e
        exact he rfl
  rw [List.flatMap_congr hsum]
  have hnd : V.Nodup := by
    have h0 : V.map (fun v => crossAt (prodShape post) v.1.1 v.2 v.1.2) =
        (pairs (prodShape pre) (prodShape post)).flatMap fun u =>
          (List.range 3).map fun y => crossAt (prodShape post) u.1 y u.2 := by
      rw [hV, List.map_flatMap]
      apply List.flatMap_congr
      intro u _
      rw [List.map_map]; rfl
    have hpn : (pairs (prodShape pre) (prodShape post)).Nodup := by
      have := List.nodup_range (n := prodShape pre * prodShape post)
      rw [range_pairs] at this
      exact List.Nodup.of_map _ this
    rw [hV, List.nodup_flatMap]
    refine ⟨?_, ?_⟩
    · intro u _
      exact List.nodup_range.map (fun a b h => (Prod.mk.inj h).2)
    · refine hpn.imp ?_
      intro u u' hne
      rw [Function.onFun, List.disjoint_left]
      intro v hv hv'
      obtain ⟨_, _, rfl⟩ := List.mem_map.1 hv
      obtain ⟨_, _, h⟩ := List.mem_map.1 hv'
      exact hne (Prod.mk.inj h).1.symm
  have hmem : (((i, j), p) : (Nat × Nat) × Nat) ∈ V := by
    rw [hV, List.mem_flatMap]
    exact ⟨(i, j), mem_pairs.2 ⟨hi, hj⟩, List.mem_map.2 ⟨p, List.mem_range.2 hp, rfl⟩⟩
  have hfl : ∀ (W : List ((Nat × Nat) × Nat)) (l : List ℝ),
      (W.flatMap fun v => if v = ((i, j), p) then l else []) =
        (W.filter fun v => v = ((i, j), p)).flatMap fun _ => l := by
    intro W l
    induction W with
    | nil => rfl
    | cons v W ih => by_cases h : v = ((i, j), p) <;> simp [h, ih]
  rw [hfl, filter_unique hnd hmem (fun x _ => by simp)]
  simp

theorem cross_exact (hl : c.label = c.axis) (hne : c.n0 ≠ c.n1) (inp : String → Nat → ℝ) :
    ExactPartials c.ins c.size c.compute (c.partials inp) inp := by
  set P := prodShape pre with hP
  set Q := prodShape post with hQ
  have hsz := cross_size hs
  have hpos : ∀ t ∈ c.entries, c.pos t.1 t.2.1 < c.size ∧ c.pos t.1 t.2.2 < c.size := by
    intro t ht
    rw [cross_entries hs ha] at ht
    simp only [List.mem_flatMap, List.mem_map, List.mem_range] at ht
    obtain ⟨u, hu, y, hy, z, hz, rfl⟩ := ht
    obtain ⟨h1, h2⟩ := mem_pairs.1 hu
    rw [hsz]
    simp only [cross_pos_flat hs ha h1 h2]
    exact ⟨crossAt_lt h1 hy h2, crossAt_lt h1 hz h2⟩
  have hrows : ∀ r ∈ c.rows, r < c.size := by
    intro r hr
    rw [(cross_rows hs ha hl).1] at hr
    obtain ⟨t, ht, rfl⟩ := List.mem_map.1 hr
    exact (hpos t ht).1
  have hcols : ∀ r ∈ c.cols, r < c.size := by
    intro r hr
    rw [(cross_rows hs ha hl).2] at hr
    obtain ⟨t, ht, rfl⟩ := List.mem_map.1 hr
    exact (hpos t ht).2
  have hp0 : c.partials inp c.n0 = ⟨c.rows, c.cols, c.entries.map fun t => ((List.range 3).map fun ind =>
      cross3 (eye3 ind) (fun m => inp c.n1 (c.pos t.1 m)) t.2.1 * eye3 ind t.2.2).sum⟩ := by
    rw [Cross.partials, if_pos rfl]
  have hp1 : c.partials inp c.n1 = ⟨c.rows, c.cols, c.entries.map fun t => ((List.range 3).map fun ind =>
      cross3 (fun m => inp c.n0 (c.pos t.1 m)) (eye3 ind) t.2.1 * eye3 ind t.2.2).sum⟩ := by
    rw [Cross.partials, if_neg hne.symm]
  -- decoding of a position
  have hdec : ∀ {i p j : Nat}, p < 3 → j < Q → crossAt Q i p j / Q / 3 = i ∧
      crossAt Q i p j / Q % 3 = p ∧ crossAt Q i p j % Q = j := by
    intro i p j hp hj
    unfold crossAt
    rw [mul_add_div_lt hj, mul_add_mod_lt hj]
    omega
  have hcol : ∀ m, m < 3 → ∀ r < c.size, crossAt Q (r / Q / 3) m (r % Q) < c.size := by
    intro m hm r hr
    rw [hsz] at hr ⊢
    obtain ⟨i, p, j, hi, hp, hj, rfl⟩ := cross_surj hr
    obtain ⟨e1, _, e3⟩ := hdec hp hj (i := i)
    rw [e1, e3]
    exact crossAt_lt hi hm hj
  refine bilinear_exact hne (pairs c.size 9) (fun t => t.1)
    (fun t => crossAt Q (t.1 / Q / 3) (t.2 / 3) (t.1 % Q))
    (fun t => crossAt Q (t.1 / Q / 3) (t.2 % 3) (t.1 % Q))
    (fun t => eps (t.1 / Q % 3) (t.2 / 3) (t.2 % 3)) ?_ ?_ ?_ ?_ ?_ ?_ ?_ ?_ ?_
  · intro t ht
    obtain ⟨h1, h2⟩ := mem_pairs.1 ht
    exact hcol _ (by omega) _ h1
  · intro t ht
    obtain ⟨h1, h2⟩ := mem_pairs.1 ht
    exact hcol _ (by omega) _ h1
  · rw [hp0]; exact hcols
  · rw [hp1]; exact hcols
  · rw [hp0]; exact hrows
  · rw [hp1]; exact hrows
  · intro inp r hr
    rw [filter_pairs hr fun r k => eps (r / Q % 3) (k / 3) (k % 3) *
      (inp c.n0 (crossAt Q (r / Q / 3) (k / 3) (r % Q)) * inp c.n1 (crossAt Q (r / Q / 3) (k % 3) (r % Q)))]
    rw [hsz] at hr
    obtain ⟨i, p, j, hi, hp, hj, rfl⟩ := cross_surj hr
    obtain ⟨e1, e2, e3⟩ := hdec hp hj (i := i)
    rw [e1, e2, e3, cross_compute_flat hs ha inp hi hp hj, cross3_eps _ _ hp]
  · intro y r hr
    rw [filter_pairs hr fun r k => eps (r / Q % 3) (k / 3) (k % 3) *
      inp c.n1 (crossAt Q (r / Q / 3) (k % 3) (r % Q)) * y (crossAt Q (r / Q / 3) (k / 3) (r % Q))]
    rw [hsz] at hr
    obtain ⟨i, p, j, hi, hp, hj, rfl⟩ := cross_surj hr
    obtain ⟨e1, e2, e3⟩ := hdec hp hj (i := i)
    rw [e1, e2, e3, cross_apply hs ha hl (f := fun idx y z => ((List.range 3).map fun ind =>
      cross3 (eye3 ind) (fun m => inp c.n1 (c.pos idx m)) y * eye3 ind z).sum) hp0 y hi hp hj]
    simp only [cross_pos_flat hs ha hi hj]
    rw [cross3_left _ (fun q => y (crossAt Q i q j)) hp, cross3_eps _ _ hp]
    congr 1
    apply List.map_congr_left
    intro k _
    ring
  · intro y r hr
    rw [filter_pairs hr fun r k => eps (r / Q % 3) (k / 3) (k % 3) *
      inp c.n0 (crossAt Q (r / Q / 3) (k / 3) (r % Q)) * y (crossAt Q (r / Q / 3) (k % 3) (r % Q))]
    rw [hsz] at hr
    obtain ⟨i, p, j, hi, hp, hj, rfl⟩ := cross_surj hr
    obtain ⟨e1, e2, e3⟩ := hdec hp hj (i := i)
    rw [e1, e2, e3, cross_apply hs ha hl (f := fun idx y z => ((List.range 3).map fun ind =>
      cross3 (fun m => inp c.n0 (c.pos idx m)) (eye3 ind) y * eye3 ind z).sum) hp1 y hi hp hj]
    simp only [cross_pos_flat hs ha hi hj]
    rw [cross3_right _ (fun q => y (crossAt Q i q j)) hp, cross3_eps _ _ hp]
    congr 1
    apply List.map_congr_left
    intro k _
    ring

end

theorem stdCross_iff {n0 n1 : String} {s t : List Nat} {axis : Int} {c : Cross} :
    stdCross n0 s n1 t axis = .ok c ↔ s = t ∧ s.length ≤ 11 ∧ ∃ k : Nat, s[k]? = some 3 ∧
      (axis = k ∧ c = ⟨n0, n1, s, k, k⟩ ∨
        axis = (k : Int) - s.length ∧ axis ≤ -2 ∧ 11 ≤ (s.length : Int) - axis ∧
          c = ⟨n0, n1, s, k, (10 + axis).toNat⟩) := by
  constructor
  · intro h
    unfold stdCross at h
    split at h
    · cases h
    rename_i hst
    split at h
    · cases h
    rename_i ax hax
    split at h
    · cases h
    rename_i h3
    simp only at h
    split at h
    · cases h
    rename_i hlen
    split at h
    · cases h
    rename_i h1
    obtain ⟨hk, hax⟩ : ax < s.length ∧ (axis = ax ∨ axis = (ax : Int) - s.length) := by
      unfold normAxis at hax
      split_ifs at hax <;> cases hax <;> omega
    have h3 : s[ax]? = some 3 := by
      have h3 := not_not.1 h3
      rw [List.getD_eq_getElem _ _ hk] at h3
      rw [List.getElem?_eq_getElem hk, h3]
    have hc := (Except.ok.inj h).symm
    have hlen := not_not.1 hlen
    rcases hax with rfl | hax
    · have hb : sliceBound 10 (ax : Int) + 1 + (sliceBound 10 (↑(sliceBound s.length (ax : Int) +
          (s.length - sliceBound s.length ((ax : Int) + 1))) : Int) - sliceBound 10 (ax : Int)) = s.length := hlen
      have hle : s.length ≤ 11 ∧ sliceBound 10 (ax : Int) = ax := by
        clear hc h hlen
        unfold sliceBound at hb ⊢
        split_ifs at hb ⊢ <;> omega
      exact ⟨not_not.1 hst, hle.1, ax, h3, Or.inl ⟨rfl, by rw [hc, hle.2]⟩⟩
    · have hle : s.length ≤ 11 ∧ axis ≤ -2 ∧ 11 ≤ (s.length : Int) - axis ∧ sliceBound 10 axis = (10 + axis).toNat := by
        clear hc h
        unfold sliceBound at hlen ⊢
        split_ifs at hlen ⊢ <;> omega
      exact ⟨not_not.1 hst, hle.1, ax, h3, Or.inr ⟨hax, hle.2.1, hle.2.2.1, by rw [hc, hle.2.2.2]⟩⟩
  · rintro ⟨rfl, hl, k, h3, h⟩
    obtain ⟨hlt, h3⟩ := List.getElem?_eq_some_iff.1 h3
    have hax : normAxis s.length axis = some k := by
      unfold normAxis
      split_ifs
      · rw [Option.some.injEq]; omega
      · rw [Option.some.injEq]; omega
      · omega
    unfold stdCross
    rw [if_neg (by simp), hax]
    simp only
    rw [if_neg (by rw [List.getD_eq_getElem _ _ hlt, h3]; simp), if_neg, if_neg (by omega)]
    · rcases h with ⟨rfl, rfl⟩ | ⟨h1, h2, h4, rfl⟩
      · have : sliceBound 10 (k : Int) = k := by
          unfold sliceBound
          split_ifs <;> omega
        rw [this]
      · have : sliceBound 10 axis = (10 + axis).toNat := by
          unfold sliceBound
          split_ifs <;> omega
        rw [this]
    · rw [not_not]
      unfold sliceBound
      split_ifs <;> omega

/-- **C39**: `cross` along an axis of length 3, counted from the front or from the end: the three components of the vector
product at each position of the other axes, orthogonal to both operands; exact Jacobian if the axis is counted from the
front, or there are ten axes, or the axis is -11. Missing: the other axes counted from the end, which are refused
(`c39_accepted`) or have a wrong Jacobian (`c39_wrong_partials`). -/
theorem c39_cross_partial {n0 n1 : String} {s t : List Nat} {axis : Int} {c : Cross}
    (ho : stdCross n0 s n1 t axis = .ok c) (hs : c.setup = .ok ()) (inp : String → Nat → ℝ) :
    (∃ pre post, s = pre ++ 3 :: post ∧ t = s ∧ (axis = pre.length ∨ axis = (pre.length : Int) - s.length) ∧
      ∀ i j, InBounds pre i → InBounds post j →
        ∀ a b o : Nat → ℝ, (a = fun m => inp n0 (ravel s (i ++ m :: j))) →
          (b = fun m => inp n1 (ravel s (i ++ m :: j))) →
          (o = fun m => c.compute inp (ravel s (i ++ m :: j))) →
          o 0 = a 1 * b 2 - a 2 * b 1 ∧ o 1 = a 2 * b 0 - a 0 * b 2 ∧ o 2 = a 0 * b 1 - a 1 * b 0 ∧
          o 0 * a 0 + o 1 * a 1 + o 2 * a 2 = 0 ∧ o 0 * b 0 + o 1 * b 1 + o 2 * b 2 = 0) ∧
    (0 ≤ axis ∨ s.length = 10 ∨ axis = -11 → ExactPartials c.ins (prodShape s) c.compute (c.partials inp) inp) := by
  obtain ⟨rfl, hl11, k, h3, hc⟩ := stdCross_iff.1 ho
  obtain ⟨lab, rfl⟩ : ∃ lab, c = ⟨n0, n1, s, k, lab⟩ := by
    rcases hc with ⟨-, rfl⟩ | ⟨-, -, -, rfl⟩ <;> exact ⟨_, rfl⟩
  have hsplit : s = s.take k ++ 3 :: s.drop (k + 1) := Cross.split (c := ⟨n0, n1, s, k, lab⟩) h3
  have hlt : k < s.length := (List.getElem?_eq_some_iff.1 h3).1
  have hlen : (s.take k).length = k := by simp; omega
  refine ⟨⟨s.take k, s.drop (k + 1), hsplit, rfl, by rw [hlen]; rcases hc with h | h <;> omega, ?_⟩, ?_⟩
  · intro i j hi hj a b o ea eb eo
    have hpos : ∀ m, ravel s (i ++ m :: j) =
        crossAt (prodShape (s.drop (k + 1))) (ravel (s.take k) i) m (ravel (s.drop (k + 1)) j) := by
      intro m
      conv_lhs => rw [hsplit]
      rw [ravel_append hi]
      simp only [ravel, prodShape_cons, crossAt]
      ring
    have ho : ∀ p < 3, o p = cross3 a b p := by
      intro p hp
      rw [eo]
      beta_reduce
      rw [hpos, cross_compute_flat hsplit hlen.symm inp (ravel_lt hi) hp (ravel_lt hj), ea, eb]
      simp only [hpos]
    have o0 := ho 0 (by omega)
    have o1 := ho 1 (by omega)
    have o2 := ho 2 (by omega)
    simp only [cross3] at o0 o1 o2
    refine ⟨o0, o1, o2, ?_, ?_⟩
    · rw [o0, o1, o2]; ring
    · rw [o0, o1, o2]; ring
  · intro hgood
    refine cross_exact hsplit hlen.symm ?_ (setup2_ok hs) inp
    rcases hc with ⟨-, h⟩ | ⟨h1, h2, h4, h⟩
    · exact (Cross.mk.inj h).2.2.2.2
    · have := (Cross.mk.inj h).2.2.2.2
      show lab = k
      omega

/-- **C39**, which operands are accepted and set up: different ones of the same shape, of at most eleven axes, one of them
of length 3; that one may be counted from the end only if it is not the last one, and far enough from the end. -/
theorem c39_accepted (n0 n1 : String) (s t : List Nat) (axis : Int) :
    (∃ c, stdCross n0 s n1 t axis = .ok c ∧ c.setup = .ok ()) ↔
      n0 ≠ n1 ∧ s = t ∧ s.length ≤ 11 ∧ ∃ k : Nat, s[k]? = some 3 ∧
        (axis = k ∨ axis = (k : Int) - s.length ∧ axis ≤ -2 ∧ 11 ≤ (s.length : Int) - axis) := by
  constructor
  · rintro ⟨c, h, hs⟩
    obtain ⟨rfl, hl, k, h3, ⟨h1, rfl⟩ | ⟨h1, h2, h4, rfl⟩⟩ := stdCross_iff.1 h
    · exact ⟨setup2_iff.1 hs, rfl, hl, k, h3, Or.inl h1⟩
    · exact ⟨setup2_iff.1 hs, rfl, hl, k, h3, Or.inr ⟨h1, h2, h4⟩⟩
  · rintro ⟨hne, rfl, hl, k, h3, h1 | ⟨h1, h2, h4⟩⟩
    · exact ⟨⟨n0, n1, s, k, k⟩, stdCross_iff.2 ⟨rfl, hl, k, h3, Or.inl ⟨h1, rfl⟩⟩, setup2_iff.2 hne⟩
    · exact ⟨⟨n0, n1, s, k, _⟩, stdCross_iff.2 ⟨rfl, hl, k, h3, Or.inr ⟨h1, h2, h4, rfl⟩⟩, setup2_iff.2 hne⟩

/-- **C39** fails for negative axes: of arrays with at most five axes they are never accepted. -/
theorem c39_negative_axis (n0 n1 : String) (s t : List Nat) (axis : Int) (h : axis < 0) (hl : s.length ≤ 5) :
    ∃ e, stdCross n0 s n1 t axis = .error e := by
  cases hc : stdCross n0 s n1 t axis with
  | error e => exact ⟨e, rfl⟩
  | ok c =>
    obtain ⟨-, -, k, -, h | h⟩ := stdCross_iff.1 hc <;> omega

theorem zip_flatMap_mem {α β γ : Type} {l : List α} {F : α → List β} {G : α → List γ}
    (hl : ∀ a ∈ l, (F a).length = (G a).length) {p : β × γ} (hp : p ∈ (l.flatMap F).zip (l.flatMap G)) :
    ∃ a ∈ l, p.1 ∈ F a ∧ p.2 ∈ G a := by
  induction l with
  | nil => simp at hp
  | cons a l ih =>
    rw [List.flatMap_cons, List.flatMap_cons, List.zip_append (hl a List.mem_cons_self)] at hp
    rcases List.mem_append.1 hp with hp | hp
    · exact ⟨a, List.mem_cons_self, List.of_mem_zip hp⟩
    · obtain ⟨b, hb, h⟩ := ih (fun b hb => hl b (List.mem_cons_of_mem _ hb)) hp
      exact ⟨b, List.mem_cons_of_mem _ hb, h⟩

/-- Row and column of a declared entry differ along the axis called `y` only. -/
theorem cross_pattern {c : Cross} {r q : Nat} (h : (r, q) ∈ c.rows.zip c.cols) (hlt : c.label < c.shape.length) :
    ∃ i j : List Nat, ∃ y y' : Nat, i.length = c.label ∧ InBounds c.shape (i ++ y :: j) ∧
      InBounds c.shape (i ++ y' :: j) ∧ r = ravel c.shape (i ++ y :: j) ∧ q = ravel c.shape (i ++ y' :: j) := by
  obtain ⟨idx, hidx, hr, hq⟩ := zip_flatMap_mem (fun _ _ => by simp [Nat.mul_comm]; omega) h
  simp only [List.mem_flatMap, List.mem_map, List.mem_range] at hr hq
  obtain ⟨y, hy, -, -, rfl⟩ := hr
  obtain ⟨-, -, y', hy', rfl⟩ := hq
  unfold Cross.others at hidx
  rw [mem_cartesian, List.forall₂_map_right_iff] at hidx
  have hin : InBounds (c.shape.take c.label ++ c.shape.drop (c.label + 1)) idx :=
    hidx.imp fun _ _ h => List.mem_range.1 h
  obtain ⟨i, j, rfl, hi, hj⟩ := inBounds_append_iff hin
  have hil : i.length = c.label := by
    rw [inBounds_length hi, List.length_take]; omega
  have hsh : c.shape = c.shape.take c.label ++ c.shape.getD c.label 0 :: c.shape.drop (c.label + 1) := by
    conv_lhs => rw [← List.take_append_drop c.label c.shape]
    rw [List.drop_eq_getElem_cons hlt, List.getD_eq_getElem _ _ hlt]
  have hat : ∀ y, c.at (i ++ j) y = ravel c.shape (i ++ y :: j) := by
    intro y
    unfold Cross.at
    rw [← hil, List.take_left' rfl, List.drop_left' rfl]
  have hb : ∀ y < c.shape.getD c.label 0, InBounds c.shape (i ++ y :: j) := by
    intro y hy
    rw [hsh]
    exact inBounds_append hi (.cons hy hj)
  exact ⟨i, j, y, y', hil, hb y hy, hb y' hy', hat y, hat y'⟩

theorem crossPos {s : List Nat} (h : ∀ n ∈ s, 0 < n) : 0 < prodShape s := by
  induction s with
  | nil => simp [prodShape]
  | cons n s ih =>
    rw [prodShape_cons]
    exact Nat.mul_pos (h n List.mem_cons_self) (ih fun m hm => h m (List.mem_cons_of_mem _ hm))

/-- **C39** is violated: every other axis counted from the end that is accepted has a wrong Jacobian (here at operands
all of whose entries are one). -/
theorem c39_wrong_partials {n0 n1 : String} {s t : List Nat} {axis : Int} {c : Cross}
    (ho : stdCross n0 s n1 t axis = .ok c) (hs : c.setup = .ok ()) (hneg : axis < 0) (h10 : s.length ≠ 10)
    (h11 : axis ≠ -11) (hpos : ∀ n ∈ s, 0 < n) :
    ¬ ExactPartials c.ins (prodShape s) c.compute (c.partials fun _ _ => 1) fun _ _ => 1 := by
  obtain ⟨rfl, hl11, k, h3, hc⟩ := stdCross_iff.1 ho
  obtain ⟨lab, hlab, hllt, rfl⟩ : ∃ lab, lab ≠ k ∧ lab < s.length ∧ c = ⟨n0, n1, s, k, lab⟩ := by
    rcases hc with h | ⟨h1, h2, h4, rfl⟩
    · omega
    · have : k < s.length := (List.getElem?_eq_some_iff.1 h3).1
      exact ⟨_, by omega, by omega, rfl⟩
  have hne : n0 ≠ n1 := setup2_iff.1 hs
  have hsplit : s = s.take k ++ 3 :: s.drop (k + 1) := Cross.split (c := ⟨n0, n1, s, k, lab⟩) h3
  have hlt : k < s.length := (List.getElem?_eq_some_iff.1 h3).1
  have hlen : (s.take k).length = k := by simp; omega
  have hP : 0 < prodShape (s.take k) := crossPos fun n hn => hpos n (List.mem_of_mem_take hn)
  have hQ : 0 < prodShape (s.drop (k + 1)) := crossPos fun n hn => hpos n (List.mem_of_mem_drop hn)
  set P := prodShape (s.take k) with hPd
  set Q := prodShape (s.drop (k + 1)) with hQd
  have hsz : prodShape s = P * (3 * Q) := cross_size (c := ⟨n0, n1, s, k, lab⟩) hsplit
  intro h
  -- the same product with the axis counted from the front
  have h' : ExactPartials [(n0, prodShape s), (n1, prodShape s)] (prodShape s)
      (Cross.compute ⟨n0, n1, s, k, k⟩) (Cross.partials ⟨n0, n1, s, k, k⟩ fun _ _ => 1) fun _ _ => 1 :=
    cross_exact (c := ⟨n0, n1, s, k, k⟩) hsplit hlen.symm rfl hne _
  have hnd : ([(n0, prodShape s), (n1, prodShape s)].map Prod.fst : List String).Nodup := by simp [hne]
  have h0 : 0 < prodShape s := by rw [hsz]; positivity
  have hv := fun n N hm j hj => inputsOf_slots (ins := [(n0, prodShape s), (n1, prodShape s)]) hnd
    (fun n q => if n = n0 ∧ q = Q then (1 : ℝ) else 0) (nm := n) (N := N) (j := j) hm hj
  have e := exactPartials_action hnd h h0 (h'.jac ⟨0, h0⟩)
    (slots [(n0, prodShape s), (n1, prodShape s)] fun n q => if n = n0 ∧ q = Q then 1 else 0)
  have e' := exactPartials_action hnd h' h0 (h'.jac ⟨0, h0⟩)
    (slots [(n0, prodShape s), (n1, prodShape s)] fun n q => if n = n0 ∧ q = Q then 1 else 0)
  rw [e'] at e
  have ha : ∀ j < prodShape s, inputsOf [(n0, prodShape s), (n1, prodShape s)] (slots _
      fun n q => if n = n0 ∧ q = Q then (1 : ℝ) else 0) n0 j = if j = Q then 1 else 0 := by
    intro j hj; rw [hv n0 _ (by simp) j hj]; simp
  have hb : ∀ j < prodShape s, inputsOf [(n0, prodShape s), (n1, prodShape s)] (slots _
      fun n q => if n = n0 ∧ q = Q then (1 : ℝ) else 0) n1 j = 0 := by
    intro j hj; rw [hv n1 _ (by simp) j hj]; simp [hne.symm]
  generalize inputsOf [(n0, prodShape s), (n1, prodShape s)] (slots _
      fun n q => if n = n0 ∧ q = Q then (1 : ℝ) else 0) = u at e ha hb
  -- the direction has no part along the second operand
  have zero : ∀ (S : Coo), (∀ q ∈ S.cols, q < prodShape s) → S.apply (u n1) 0 = 0 := by
    intro S hS
    unfold Coo.apply
    rw [cooApply_congr (z := fun _ => 0) 0 fun q hq => hb q (hS q hq)]
    unfold cooApply
    simp
  have z1 := zero _ (h.cols (n1, prodShape s) (by simp [Cross.ins, Cross.size]))
  have z2 := zero _ (h'.cols (n1, prodShape s) (by simp))
  -- the entry that is missing
  have miss : (Cross.partials ⟨n0, n1, s, k, lab⟩ (fun _ _ => 1) n0).apply (u n0) 0 = 0 := by
    have hcols := h.cols (n0, prodShape s) (by simp [Cross.ins, Cross.size])
    rw [Cross.partials, if_pos rfl] at hcols ⊢
    unfold Coo.apply cooApply
    apply List.sum_eq_zero
    intro x hx
    obtain ⟨⟨r, q, v⟩, hm, rfl⟩ := List.mem_map.1 hx
    simp only
    split
    · rename_i hr
      subst hr
      have hq : q ∈ Cross.cols ⟨n0, n1, s, k, lab⟩ := (List.of_mem_zip (List.of_mem_zip hm).2).1
      rw [ha q (hcols q hq), if_neg, mul_zero]
      rintro rfl
      have hz : (0, Q) ∈ (Cross.rows ⟨n0, n1, s, k, lab⟩).zip (Cross.cols ⟨n0, n1, s, k, lab⟩) := by
        obtain ⟨x, hx, hg⟩ := List.getElem_of_mem hm
        simp only [List.getElem_zip, Prod.mk.injEq] at hg
        simp only [List.length_zip] at hx
        refine List.mem_iff_getElem.2 ⟨x, by rw [List.length_zip]; omega, ?_⟩
        rw [List.getElem_zip, hg.1, hg.2.1]
      obtain ⟨i, j, y, y', hil, hb1, hb2, e1, e2⟩ := cross_pattern hz hllt
      simp only at hil hb1 hb2 e1 e2
      -- both positions along the axis of the product
      have hk1 : ravel s (i ++ y :: j) / Q % 3 = (i ++ y :: j).getD k 0 ∧
          ravel s (i ++ y' :: j) / Q % 3 = (i ++ y' :: j).getD k 0 := by
        have : ∀ idx, InBounds s idx → ravel s idx / Q % 3 = idx.getD k 0 := by
          intro idx hidx
          rw [hsplit] at hidx
          obtain ⟨i0, i1, rfl, hi0, hi1⟩ := inBounds_append_iff hidx
          cases hi1 with
          | cons hm hj =>
            rename_i m j
            have hl0 : i0.length = k := by rw [inBounds_length hi0, hlen]
            conv_lhs => rw [hsplit]
            rw [ravel_append hi0]
            simp only [ravel, prodShape_cons]
            rw [show ravel (s.take k) i0 * (3 * prodShape (s.drop (k + 1))) +
              (m * prodShape (s.drop (k + 1)) + ravel (s.drop (k + 1)) j) =
              (ravel (s.take k) i0 * 3 + m) * prodShape (s.drop (k + 1)) + ravel (s.drop (k + 1)) j by ring,
              mul_add_div_lt (ravel_lt hj), ← hl0]
            simp
            omega
        exact ⟨this _ hb1, this _ hb2⟩
      have hk2 : (i ++ y :: j).getD k 0 = (i ++ y' :: j).getD k 0 := by
        rw [List.getD_eq_getElem?_getD, List.getD_eq_getElem?_getD, List.getElem?_append, List.getElem?_append]
        split
        · rfl
        · rename_i hki
          have : k - i.length ≠ 0 := by omega
          obtain ⟨n, hn⟩ := Nat.exists_eq_succ_of_ne_zero this
          rw [hn]
          rfl
      rw [← e1, ← e2, hk2] at hk1
      have := hk1.1.trans hk1.2.symm
      rw [Nat.zero_div, Nat.div_self hQ] at this
      simp at this
    · rfl
  have there : (Cross.partials ⟨n0, n1, s, k, k⟩ (fun _ _ => 1) n0).apply (u n0) 0 = 1 := by
    have hp0 : Cross.partials ⟨n0, n1, s, k, k⟩ (fun _ _ => 1) n0 = ⟨Cross.rows ⟨n0, n1, s, k, k⟩,
        Cross.cols ⟨n0, n1, s, k, k⟩, (Cross.entries ⟨n0, n1, s, k, k⟩).map fun t => ((List.range 3).map fun ind =>
          cross3 (eye3 ind) (fun _ => 1) t.2.1 * eye3 ind t.2.2).sum⟩ := by
      rw [Cross.partials, if_pos rfl]
    have := cross_apply (c := ⟨n0, n1, s, k, k⟩) hsplit hlen.symm rfl (f := fun _ y z => ((List.range 3).map fun ind =>
      cross3 (eye3 ind) (fun _ => 1) y * eye3 ind z).sum) hp0 (u n0) (i := 0) (p := 0) (j := 0) hP (by omega) hQ
    rw [show crossAt (prodShape (s.drop (k + 1))) 0 0 0 = 0 by simp [crossAt]] at this
    rw [this, cross3_left (fun _ => 1) (fun q => u n0 (crossAt (prodShape (s.drop (k + 1))) 0 q 0)) (by omega)]
    have hq : ∀ q < 3, crossAt (prodShape (s.drop (k + 1))) 0 q 0 < prodShape s := by
      intro q hq
      rw [hsz]
      exact crossAt_lt hP hq hQ
    simp only [cross3]
    rw [ha _ (hq 1 (by omega)), ha _ (hq 2 (by omega)), if_pos (by simp [crossAt, hQd]),
      if_neg (by simp only [crossAt]; omega)]
    norm_num
  simp only [List.map_cons, List.map_nil, List.sum_cons, List.sum_nil] at e
  rw [z1, z2, miss, there] at e
  norm_num at e

example : ∃ c, stdCross "a" [2, 3, 4] "b" [2, 3, 4] 1 = .ok c ∧ c.setup = .ok () ∧ c.size = 24 :=
  ⟨⟨"a", "b", [2, 3, 4], 1, 1⟩, rfl, rfl, rfl⟩

example : stdCross "a" [4, 3] "b" [4, 3] (-1) = .error .valueError := rfl

/-- Accepted, with the last axis taken for the one of the product in the rows and columns. -/
example : stdCross "a" [1, 3, 1, 1, 1, 3] "b" [1, 3, 1, 1, 1, 3] (-5) =
    .ok ⟨"a", "b", [1, 3, 1, 1, 1, 3], 1, 5⟩ := rfl

end OM
