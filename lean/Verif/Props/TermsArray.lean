import Verif.Props.Terms

/-! # The component built for a call computes what the call means: arrays -/

namespace OM
open Spec

section
variable (name : Ref → String) (shape : Ref → List Nat) (val : Ref → Nat → ℝ) (inp : String → Nat → ℝ)

/-! ## Sums and averages -/

theorem setupRed_ok {as : List Ref} {axes : Option (List Int)} {c : Red}
    (h : setupRed name shape as axes = .ok c) :
    (∀ a ∈ as, ∀ b ∈ as, shape a = shape b) ∧
      stdRed (as.map fun u => (name u, shape u)) axes = .ok c ∧ c.setup = .ok () := by
  unfold setupRed at h
  split at h
  · cases h
  · rename_i hs
    push Not at hs
    split at h
    · cases h
    · rename_i c' hc
      split at h
      · cases h
      · rename_i hset
        cases h
        exact ⟨hs, hc, hset⟩

/-- What is known about a sum or average that was set up. -/
structure RedFacts (as : List Ref) (axes : Option (List Int)) (c : Red) : Prop where
  names : c.names = as.map name
  nodup : c.names.Nodup
  shapes : ∀ a ∈ as, shape a = c.shape
  ne : as ≠ []
  none : axes = none → c.axes = none
  some : ∀ ax, axes = some ax → c.axes = some (axesOf c.shape.length ax)

theorem redFacts {as : List Ref} {axes : Option (List Int)} {c : Red}
    (h : setupRed name shape as axes = .ok c) : RedFacts name shape as axes c := by
  obtain ⟨h1, h2, h3⟩ := setupRed_ok name shape h
  obtain ⟨g1, ⟨n, g2⟩, g3, g4⟩ := c35_arguments h2
  have hl : ∃ a ∈ as, shape a = c.shape := by
    have := List.mem_of_getLast? g2
    obtain ⟨a, ha, he⟩ := List.mem_map.1 this
    exact ⟨a, ha, (Prod.ext_iff.1 he).2⟩
  obtain ⟨a, ha, hsa⟩ := hl
  refine ⟨?_, ?_, ?_, List.ne_nil_of_mem ha, g3, ?_⟩
  · rw [g1, List.map_map]; rfl
  · unfold Red.setup at h3
    split at h3
    · assumption
    · cases h3
  · intro b hb
    rw [h1 b hb a ha, hsa]
  · intro ax hax
    obtain ⟨l, hl1, hl2⟩ := g4 ax hax
    rw [hl1, axesOf_names hl2]

variable {name shape}

theorem RedFacts.wired {as : List Ref} {axes : Option (List Int)} {c : Red} (h : RedFacts name shape as axes c)
    (s : List Nat) (f : (String → Nat → ℝ) → Except PyErr (Nat → ℝ))
    (p : (String → Nat → ℝ) → Except PyErr (String → Coo)) :
    (⟨c.ins, s, f, p⟩ : Built).Wired name shape as := by
  refine ⟨?_, ?_, fun u hu => ?_⟩
  · simp only [Red.ins, List.map_map]
    have : (Prod.fst ∘ fun n : String => (n, c.size)) = id := rfl
    rw [this, List.map_id]
    exact h.nodup
  · intro q hq
    simp only [Red.ins, h.names, List.mem_map] at hq
    obtain ⟨n, ⟨u, hu, rfl⟩, rfl⟩ := hq
    exact ⟨u, hu, by rw [h.shapes u hu]; rfl⟩
  · simpa [Red.ins, List.map_map, Function.comp_def, h.names] using ⟨u, hu, rfl⟩

theorem RedFacts.outShape {as : List Ref} {axes : Option (List Int)} {c : Red}
    (h : RedFacts name shape as axes c) : c.outShape = (Term.sum as axes).outShape shape := by
  have hne := h.ne
  unfold Red.outShape
  rw [h.names]
  cases axes with
  | none =>
    rw [h.none rfl]
    match as, hne with
    | [a], _ => rfl
    | a :: b :: l, _ =>
      simp only [List.length_map, List.length_cons, Nat.add_eq_right, Nat.add_eq_zero_iff, one_ne_zero, and_false,
        if_false]
      exact (h.shapes a (by simp)).symm
  | some ax =>
    rw [h.some ax rfl]
    match as, hne with
    | a :: l, _ =>
      simp only [Term.outShape]
      rw [h.shapes a (by simp)]

theorem redFacts_flat {as : List Ref} {c : Red} (h : RedFacts name shape as none c)
    (hin : ∀ u ∈ as, inp (name u) = val u) (hl : 2 ≤ as.length) (idx : List Nat) :
    c.names.map (fun n => inp n (ravel ((Term.sum as none).outShape shape) idx)) =
      as.map fun a => entryAt shape val a idx := by
  rw [h.names, List.map_map]
  apply List.map_congr_left
  intro u hu
  have ho := h.outShape
  match as, hl, h, hu with
  | a :: b :: l, _, h, hu =>
    simp only [Function.comp, entryAt, Term.outShape]
    rw [hin u hu, h.shapes a (by simp), h.shapes u hu]

theorem sum_range_list (N : Nat) (f : Nat → ℝ) : ∑ k ∈ Finset.range N, f k = ((List.range N).map f).sum := by
  induction N with
  | zero => simp
  | succ N ih => rw [Finset.sum_range_succ, ih, List.range_succ]; simp

variable (name shape)

theorem correct_sum (as : List Ref) (axes : Option (List Int)) :
    (Term.sum as axes).Correct name shape val inp := by
  intro B hB
  rw [Term.build] at hB
  split at hB
  · cases hB
  rename_i c hc
  cases hB
  obtain ⟨-, hstd, hset⟩ := setupRed_ok name shape hc
  have hF := redFacts name shape hc
  refine ⟨hF.wired _ _ _, fun _ hin => ?_⟩
  have hin : ∀ u ∈ as, inp (name u) = val u := hin
  obtain ⟨h1, h2, h3, h4⟩ := c35_sum hstd hset inp
  refine good_of hF.outShape (fun idx hidx => ?_) (by rw [← hF.outShape]; exact h4)
  cases axes with
  | none =>
    match as, hF, hin with
    | [], hF, _ => exact absurd rfl hF.ne
    | [a], hF, hin =>
      have h0 : ravel ((Term.sum [a] none).outShape shape) idx = 0 := by
        have := ravel_lt hidx
        simpa [Term.outShape, prodShape] using this
      rw [h0, h1 (name a) (hF.none rfl) hF.names, hin a List.mem_cons_self, sum_range_list]
      simp only [Term.entry, allEntries]
      rw [hF.shapes a (by simp)]
      rfl
    | a :: b :: l, hF, hin =>
      have hlt : ravel ((Term.sum (a :: b :: l) none).outShape shape) idx < c.size := by
        have := ravel_lt hidx
        rwa [show (Term.sum (a :: b :: l) none).outShape shape = c.shape from hF.shapes a List.mem_cons_self] at this ⊢
      rw [h2 (hF.none rfl) (by rw [hF.names]; simp) _ hlt, redFacts_flat val inp hF hin (by simp)]
      rfl
  | some ax =>
    have ho := hF.outShape
    have hax := hF.some ax rfl
    have ho' : (Term.sum as (some ax)).outShape shape = npDelete (axesOf c.shape.length ax) c.shape := by
      rw [← ho, Red.outShape, hax]
    rw [ho'] at hidx ⊢
    rw [h3 _ hax idx hidx, hF.names, List.map_map]
    have : (Term.sum as (some ax)).entry shape val idx =
        (as.map fun a => (entriesOver shape val a ax idx).sum).sum := by
      match as with
      | [] => rfl
      | [a] => rfl
      | a :: b :: l => rfl
    rw [this]
    congr 1
    apply List.map_congr_left
    intro u hu
    simp only [Function.comp, entriesOver]
    rw [hF.shapes u hu, hin u hu]

theorem correct_average (as : List Ref) (axes : Option (List Int)) :
    (Term.average as axes).Correct name shape val inp := by
  intro B hB
  rw [Term.build] at hB
  split at hB
  · cases hB
  rename_i c hc
  split at hB
  · cases hB
  rename_i w hw
  cases hB
  obtain ⟨-, hstd, hset⟩ := setupRed_ok name shape hc
  have hF := redFacts name shape hc
  refine ⟨hF.wired _ _ _, fun hd hin => ?_⟩
  have hin : ∀ u ∈ as, inp (name u) = val u := hin
  obtain ⟨h1, h2, h3, h4⟩ := c35_average_partial hstd hset hw hd inp
  have hoA : (Term.average as axes).outShape shape = (Term.sum as axes).outShape shape := by
    cases axes <;> rfl
  rw [hoA]
  refine good_of hF.outShape (fun idx hidx => ?_) (by rw [← hF.outShape]; exact h4)
  cases axes with
  | none =>
    match as, hF, hin with
    | [], hF, _ => exact absurd rfl hF.ne
    | [a], hF, hin =>
      have h0 : ravel ((Term.sum [a] none).outShape shape) idx = 0 := by
        have := ravel_lt hidx
        simpa [Term.outShape, prodShape] using this
      rw [h0, h1 (name a) (hF.none rfl) hF.names, hin a List.mem_cons_self, sum_range_list]
      simp only [Term.entry, allEntries, mean, List.length_map, List.length_range]
      rw [hF.shapes a (by simp)]
      rfl
    | a :: b :: l, hF, hin =>
      have hlt : ravel ((Term.sum (a :: b :: l) none).outShape shape) idx < c.size := by
        have := ravel_lt hidx
        rwa [show (Term.sum (a :: b :: l) none).outShape shape = c.shape from hF.shapes a List.mem_cons_self] at this ⊢
      rw [h2 (hF.none rfl) (by rw [hF.names]; simp) _ hlt, redFacts_flat val inp hF hin (by simp)]
      rfl
  | some ax =>
    have ho := hF.outShape
    have hax := hF.some ax rfl
    have ho' : (Term.sum as (some ax)).outShape shape = npDelete (axesOf c.shape.length ax) c.shape := by
      rw [← ho, Red.outShape, hax]
    rw [ho'] at hidx ⊢
    rw [h3 _ hax idx hidx, hF.names, List.map_map]
    have : (Term.average as (some ax)).entry shape val idx =
        mean (as.map fun a => mean (entriesOver shape val a ax idx)) := by
      match as with
      | [] => rfl
      | [a] => rfl
      | a :: b :: l => rfl
    rw [this]
    congr 1
    apply List.map_congr_left
    intro u hu
    simp only [Function.comp, entriesOver]
    rw [hF.shapes u hu, hin u hu]

/-! ## Products -/

theorem wired2 {n0 n1 : String} {a b : Ref} {s0 s1 : Nat} (hs : setup2 n0 n1 = .ok ())
    (h0 : n0 = name a) (h1 : n1 = name b) (e0 : s0 = prodShape (shape a)) (e1 : s1 = prodShape (shape b))
    (s : List Nat) (f : (String → Nat → ℝ) → Except PyErr (Nat → ℝ))
    (p : (String → Nat → ℝ) → Except PyErr (String → Coo)) :
    (⟨[(n0, s0), (n1, s1)], s, f, p⟩ : Built).Wired name shape [a, b] := by
  subst h0 h1 e0 e1
  unfold setup2 at hs
  split at hs
  · cases hs
  · rename_i hne
    exact ⟨by simpa using hne, by simp, by simp⟩

theorem inBounds_two {m p : Nat} {idx : List Nat} (h : InBounds [m, p] idx) :
    ∃ i j, idx = [i, j] ∧ i < m ∧ j < p := by
  cases h with
  | cons h1 h =>
    cases h with
    | cons h2 h =>
      cases h
      exact ⟨_, _, rfl, h1, h2⟩

theorem inBounds_one {m : Nat} {idx : List Nat} (h : InBounds [m] idx) : ∃ i, idx = [i] ∧ i < m := by
  cases h with
  | cons h1 h =>
    cases h
    exact ⟨_, rfl, h1⟩

theorem correct_matmat (a b : Ref) : (Term.matmat a b).Correct name shape val inp := by
  intro B hB
  rw [Term.build] at hB
  obtain ⟨c, hc, hset, rfl⟩ := builtOf_ok hB
  obtain ⟨⟨m, n, p, hm, hp, ho, -, hv⟩, hex⟩ := c36_matmat hc hset inp
  obtain ⟨rest, hrest⟩ : ∃ rest, shape a = m :: n :: rest := by
    rcases hm with h | ⟨rfl, r, h⟩
    · exact ⟨[], h⟩
    · exact ⟨_, h⟩
  have hnames : c.n0 = name a ∧ c.n1 = name b ∧ c.m * c.n = prodShape (shape a) ∧ c.n * c.p = prodShape (shape b) := by
    have h1 : prodShape rest = 1 := by
      rw [hrest] at hm
      exact (matrixLike_of (m := m) (rest_of_matrixLike hm).2.2).2
    unfold stdMatmat at hc
    rw [hrest] at hc ⊢
    have h1' : rest.prod = 1 := h1
    rcases hp with hp | ⟨hp, rfl⟩ <;> rw [hp] at hc ⊢ <;> simp only at hc <;> split at hc <;>
      first
        | cases hc
        | (split at hc <;> cases hc <;> simp [prodShape, h1'])
  refine ⟨wired2 name shape hset hnames.1 hnames.2.1 hnames.2.2.1 hnames.2.2.2 _ _ _, fun _ hin => ?_⟩
  have ha : inp (name a) = val a := hin a (by simp [Term.refs])
  have hb : inp (name b) = val b := hin b (by simp [Term.refs])
  have ho' : (Term.matmat a b).outShape shape = [m, p] := by
    rcases hp with hp | ⟨hp, rfl⟩ <;> simp [Term.outShape, hrest, hp]
  rw [ho']
  refine good_of ho (fun idx hidx => ?_) (by rw [← ho]; exact hex)
  obtain ⟨i, j, rfl, hi, hj⟩ := inBounds_two hidx
  rw [hv i hi j hj, ha, hb]
  simp only [Term.entry, entryAt]
  refine Finset.sum_congr (by simp [hrest]) fun k _ => ?_
  rcases hp with hp | ⟨hp, rfl⟩
  · simp [hp, Spec.matrixPos]
  · obtain rfl : j = 0 := by omega
    simp [hp, ravel, prodShape, Spec.matrixPos]

theorem correct_matvec (a b : Ref) : (Term.matvec a b).Correct name shape val inp := by
  intro B hB
  rw [Term.build] at hB
  obtain ⟨c, hc, hset, rfl⟩ := builtOf_ok hB
  obtain ⟨m, n, hm, hp, ho, hv, hex⟩ := c36_matvec hc hset inp
  obtain ⟨rest, hrest⟩ : ∃ rest, shape a = m :: n :: rest := by
    rcases hm with h | ⟨rfl, r, h⟩
    · exact ⟨[], h⟩
    · exact ⟨_, h⟩
  have hnames : c.n0 = name a ∧ c.n1 = name b ∧ c.m * c.n = prodShape (shape a) ∧ c.n = prodShape (shape b) := by
    have h1 : prodShape rest = 1 := by
      rw [hrest] at hm
      exact (matrixLike_of (m := m) (rest_of_matrixLike hm).2.2).2
    unfold stdMatvec at hc
    rw [hrest] at hc ⊢
    have h1' : rest.prod = 1 := h1
    rw [hp] at hc ⊢
    simp only at hc
    split at hc
    · cases hc
    · split at hc <;> cases hc
      simp [prodShape, h1']
  refine ⟨wired2 name shape hset hnames.1 hnames.2.1 hnames.2.2.1 hnames.2.2.2 _ _ _, fun _ hin => ?_⟩
  have ha : inp (name a) = val a := hin a (by simp [Term.refs])
  have hb : inp (name b) = val b := hin b (by simp [Term.refs])
  have ho' : (Term.matvec a b).outShape shape = [m] := by simp [Term.outShape, hrest]
  rw [ho']
  refine good_of ho (fun idx hidx => ?_) (by rw [← ho]; exact hex)
  obtain ⟨i, rfl, hi⟩ := inBounds_one hidx
  have : ravel [m] [i] = i := by simp [ravel, prodShape]
  rw [this, hv i hi, ha, hb]
  simp only [Term.entry, entryAt]
  refine Finset.sum_congr (by simp [hrest]) fun k _ => ?_
  simp [hp, ravel, prodShape, Spec.matrixPos]

theorem correct_outer (a b : Ref) : (Term.outer a b).Correct name shape val inp := by
  intro B hB
  rw [Term.build] at hB
  obtain ⟨c, hc, hset, rfl⟩ := builtOf_ok hB
  obtain ⟨ho, hv, hex⟩ := c37_outer hc hset inp
  have hnames : c = ⟨name a, name b, shape a, shape b⟩ := by
    unfold stdOuter at hc
    split at hc <;> cases hc
    rfl
  refine ⟨wired2 name shape hset (by rw [hnames]) (by rw [hnames]) (by rw [hnames]; rfl) (by rw [hnames]; rfl) _ _ _,
    fun _ hin => ?_⟩
  have ha : inp (name a) = val a := hin a (by simp [Term.refs])
  have hb : inp (name b) = val b := hin b (by simp [Term.refs])
  refine good_of ho (fun idx hidx => ?_) (by
    show ExactPartials _ (prodShape (shape a ++ shape b)) _ _ _
    rw [← ho]; exact hex)
  obtain ⟨i, j, rfl, hi, hj⟩ := inBounds_append_iff hidx
  have := hv i j hi hj
  rw [ho] at this
  rw [show (Term.outer a b).outShape shape = shape a ++ shape b from rfl, this, ha, hb]
  simp only [Term.entry, entryAt]
  rw [← inBounds_length hi, List.take_left, List.drop_left]

theorem correct_dot (a b : Ref) (axis : Option Int) : (Term.dot a b axis).Correct name shape val inp := by
  intro B hB
  rw [Term.build] at hB
  obtain ⟨c, hc, hset, rfl⟩ := builtOf_ok hB
  cases c with
  | inl c =>
    obtain ⟨⟨n, hsa, hsb, hv⟩, hex⟩ := c38_dot.1 c hc hset inp
    have hnames : c = ⟨name a, name b, n⟩ := by
      unfold stdDot at hc
      rw [hsa, hsb] at hc
      simp only [ne_eq, not_true_eq_false, if_false] at hc
      cases hc
      rfl
    refine ⟨wired2 name shape hset (by rw [hnames]) (by rw [hnames]) (by rw [hnames, hsa]; simp [prodShape])
      (by rw [hnames, hsb]; simp [prodShape]) _ _ _, fun _ hin => ?_⟩
    have ha : inp (name a) = val a := hin a (by simp [Term.refs])
    have hb : inp (name b) = val b := hin b (by simp [Term.refs])
    have ho : (Term.dot a b axis).outShape shape = [1] := by simp [Term.outShape, hsa]
    rw [ho]
    refine good_of rfl (fun idx hidx => ?_) hex
    obtain ⟨i, rfl, hi⟩ := inBounds_one hidx
    obtain rfl : i = 0 := by omega
    rw [show ravel [1] [0] = 0 from rfl, hv, ha, hb]
    simp [Term.entry, hsa, vectorProduct, prodShape]
  | inr c =>
    obtain ⟨⟨x, ax, rfl, hax, hst, h3, ho, hv⟩, hex⟩ := c38_dot.2 c hc hset inp
    have hl : (shape a).length ≠ 1 := ((c38_dot_accepted _ _ _ _ _).2.1 ⟨c, hc, hset⟩).2.2.1
    have hnames : c = ⟨name a, name b, shape a, ax⟩ := by
      unfold stdDot at hc
      rw [hst] at hc
      simp only [ne_eq, not_true_eq_false, if_false] at hc
      split at hc
      · cases hc
      · rw [normAxis_iff.2 hax] at hc
        simp only at hc
        split at hc <;> cases hc
        rfl
    refine ⟨wired2 name shape hset (by rw [hnames]) (by rw [hnames]) (by rw [hnames]; rfl)
      (by rw [hnames, hst]; rfl) _ _ _, fun _ hin => ?_⟩
    have ha : inp (name a) = val a := hin a (by simp [Term.refs])
    have hb : inp (name b) = val b := hin b (by simp [Term.refs])
    have ho' : (Term.dot a b (some x)).outShape shape = npDelete [ax] (shape a) := by
      simp [Term.outShape, hl, axisOf_names hax]
    rw [ho']
    refine good_of ho (fun idx hidx => ?_) (by rw [← ho]; exact hex)
    rw [hv idx hidx, ha, hb]
    simp [Term.entry, hl, axisOf_names hax]

theorem correct_inner (a b : Ref) (axes : Option (List Int × List Int)) :
    (Term.inner a b axes).Correct name shape val inp := by
  intro B hB
  rw [Term.build] at hB
  obtain ⟨c, hc, hset, rfl⟩ := builtOf_ok hB
  cases c with
  | inl c =>
    obtain ⟨⟨n, hsa, hsb, hv⟩, hex⟩ := c38_inner_value.1 c hc hset inp
    have hnames : c = ⟨name a, name b, n⟩ := by
      unfold stdInner at hc
      rw [hsa, hsb] at hc
      simp only [if_true] at hc
      cases hc
      rfl
    refine ⟨wired2 name shape hset (by rw [hnames]) (by rw [hnames]) (by rw [hnames, hsa]; simp [prodShape])
      (by rw [hnames, hsb]; simp [prodShape]) _ _ _, fun _ hin => ?_⟩
    have ha : inp (name a) = val a := hin a (by simp [Term.refs])
    have hb : inp (name b) = val b := hin b (by simp [Term.refs])
    have ho : (Term.inner a b axes).outShape shape = [1] := by simp [Term.outShape, hsa, hsb]
    rw [ho]
    refine good_of rfl (fun idx hidx => ?_) hex
    obtain ⟨i, rfl, hi⟩ := inBounds_one hidx
    obtain rfl : i = 0 := by omega
    rw [show ravel [1] [0] = 0 from rfl, hv, ha, hb]
    simp [Term.entry, hsa, hsb, vectorProduct, prodShape]
  | inr c =>
    have hl := ((c38_inner_accepted _ _ _ _ _).2.1 ⟨c, hc, hset⟩).2.1
    obtain ⟨a0, a1, l0, l1, rfl, hn0, hn1, ho, hv⟩ := c38_inner_value.2 c hc inp
    have hnames : c = ⟨name a, name b, shape a, shape b, a0, a1⟩ := by
      unfold stdInner at hc
      split at hc
      · split at hc <;> cases hc
      · simp only [normAxes_iff.2 hn0, normAxes_iff.2 hn1] at hc
        split at hc <;> cases hc
        rfl
    refine ⟨wired2 name shape hset (by rw [hnames]) (by rw [hnames]) (by rw [hnames]; rfl)
      (by rw [hnames]; rfl) _ _ _, fun hd hin => ?_⟩
    have ha : inp (name a) = val a := hin a (by simp [Term.refs])
    have hb : inp (name b) = val b := hin b (by simp [Term.refs])
    obtain ⟨hd0, hd1⟩ := hd a0 a1 rfl
    have hex := c38_inner_partials_partial hc hset hd0 hd1 inp
    have ho' : (Term.inner a b (some (a0, a1))).outShape shape = npDelete l0 (shape a) ++ npDelete l1 (shape b) := by
      simp only [Term.outShape, if_neg hl, axesOf_names hn0, axesOf_names hn1]
    rw [ho']
    refine good_of ho (fun idx hidx => ?_) (by rw [← ho]; exact hex)
    obtain ⟨i, j, rfl, hi, hj⟩ := inBounds_append_iff hidx
    have := hv i j hi hj
    rw [ho] at this
    rw [this, ha, hb]
    simp only [Term.entry, if_neg hl, axesOf_names hn0, axesOf_names hn1]
    rw [← inBounds_length hi, List.take_left, List.drop_left]
    rfl

end

end OM
