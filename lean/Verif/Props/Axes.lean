import Verif.Lemmas.Axes
import Verif.Props.Product

/-! # expand (C41), reorder_axes and transpose (C42), reshape (C43) -/

namespace OM
open Spec

/-! ## Strings -/

/-- The string `a->b`. -/
def Spec.arrow (a b : List Char) : List Char := a ++ '-' :: '>' :: b

/-- A list of subscripts: no `-` and no blanks. -/
def Spec.Letters (a : List Char) : Prop := ∀ ch ∈ a, ch ≠ '-' ∧ ch ≠ ' '

instance (a : List Char) : Decidable (Spec.Letters a) := inferInstanceAs (Decidable (∀ _ ∈ _, _))

theorem splitArrow_letters {b : List Char} (hb : Letters b) (acc : List Char) :
    splitArrow acc b = [acc.reverse ++ b] := by
  induction b generalizing acc with
  | nil => simp [splitArrow]
  | cons x t ih =>
    have hx := (hb x (by simp)).1
    rw [splitArrow, ih (fun ch h => hb ch (by simp [h]))]
    · simp
    · intro t' he _; exact hx he

theorem splitArrow_arrow {a b : List Char} (ha : Letters a) (hb : Letters b) (acc : List Char) :
    splitArrow acc (arrow a b) = [acc.reverse ++ a, b] := by
  induction a generalizing acc with
  | nil => simp [arrow, splitArrow, splitArrow_letters hb]
  | cons x t ih =>
    have hx := (ha x (by simp)).1
    show splitArrow acc (x :: arrow t b) = _
    rw [splitArrow, ih (fun ch h => ha ch (by simp [h]))]
    · simp
    · intro t' he _; exact hx he

theorem splitArrow_nil {a b : List Char} (ha : Letters a) (hb : Letters b) :
    splitArrow [] (arrow a b) = [a, b] := splitArrow_arrow ha hb []

theorem filter_arrow {a b : List Char} (ha : Letters a) (hb : Letters b) :
    (arrow a b).filter (· ≠ ' ') = arrow a b := by
  refine List.filter_eq_self.2 fun ch h => ?_
  simp only [arrow, List.mem_append, List.mem_cons] at h
  rcases h with h | rfl | rfl | h
  · simpa using (ha ch h).2
  · decide
  · decide
  · simpa using (hb ch h).2

/-! ## reorder_axes -/

theorem stdReorder_ok {name : String} {shape : List Nat} {a b : List Char} (ha : Letters a) (hb : Letters b)
    {c : Reorder} (h : stdReorder name shape (arrow a b) = .ok c) :
    c = ⟨name, shape, b.map a.idxOf⟩ ∧ (∀ ch ∈ b, ch ∈ a) ∧ IsAxisPerm shape.length (b.map a.idxOf) := by
  unfold stdReorder newAxesLocations at h
  rw [filter_arrow ha hb, splitArrow_nil ha hb] at h
  simp only at h
  split at h
  · cases h
  · rename_i p hp
    split at hp
    · rename_i hm
      obtain rfl := Except.ok.inj hp
      split at h
      · cases h
      · rename_i h1
        split at h
        · cases h
        · rename_i h2
          push Not at h1 h2
          exact ⟨(Except.ok.inj h).symm, hm, h2.1, h2.2, h1⟩
    · cases hp

theorem Reorder.exact (c : Reorder) (h : IsAxisPerm c.shape.length c.perm) (inp : String → Nat → ℝ) :
    ExactPartials c.ins (prodShape c.outShape) c.compute c.partials inp := by
  have hs : prodShape c.outShape = c.size := prodShape_axisPerm h
  rw [hs]
  refine gather_linear (npTranspose c.shape c.perm id) ?_ (fun _ _ _ => rfl) ?_
  · intro r hr
    obtain ⟨idx, hb, rfl⟩ := axisPerm_surj h hr
    rw [npTranspose_ravel h hb]
    exact ravel_lt hb
  · show Coo.mk _ _ _ = _
    simp [npFlat, List.map_const']

theorem map_idxOf_getD {a b : List Char} {s : List Nat} :
    ((b.map a.idxOf).map fun k => s.getD k 0) = b.map fun ch => s.getD (a.idxOf ch) 0 := by
  rw [List.map_map]; rfl

/-- **C42**, reorder_axes: axis `k` of the result is the axis of the operand with the same letter; the entry at
the permuted multi-index is the entry of the operand; the partials are exact. -/
theorem c42_reorder {name : String} {shape : List Nat} {a b : List Char} (ha : Letters a) (hb : Letters b)
    {c : Reorder} (h : stdReorder name shape (arrow a b) = .ok c) :
    c.outShape = b.map (fun ch => shape.getD (a.idxOf ch) 0) ∧
    prodShape c.outShape = prodShape shape ∧
    (∀ inp idx, InBounds shape idx →
      InBounds c.outShape (b.map fun ch => idx.getD (a.idxOf ch) 0) ∧
      c.compute inp (ravel c.outShape (b.map fun ch => idx.getD (a.idxOf ch) 0)) = inp name (ravel shape idx)) ∧
    ∀ inp, ExactPartials [(name, prodShape shape)] (prodShape shape) c.compute c.partials inp := by
  obtain ⟨rfl, _, hp⟩ := stdReorder_ok ha hb h
  refine ⟨map_idxOf_getD, prodShape_axisPerm hp, fun inp idx hi => ?_, fun inp => ?_⟩
  · rw [← map_idxOf_getD]
    exact ⟨inBounds_axisPerm hp hi, npTranspose_ravel hp hi (inp name)⟩
  · have := Reorder.exact ⟨name, shape, b.map a.idxOf⟩ hp inp
    rwa [show prodShape (Reorder.outShape ⟨name, shape, b.map a.idxOf⟩) = prodShape shape from
      prodShape_axisPerm hp] at this

/-- The letters on the right have to name every axis once. -/
theorem c42_refused {name : String} {shape : List Nat} {a b : List Char} (ha : Letters a) (hb : Letters b)
    (h : b.length ≠ shape.length ∨ ¬ b.Nodup ∨ ∃ ch ∈ b, ch ∉ a) :
    ∃ e, stdReorder name shape (arrow a b) = .error e := by
  cases hc : stdReorder name shape (arrow a b) with
  | error e => exact ⟨e, rfl⟩
  | ok c =>
    obtain ⟨_, hm, hp⟩ := stdReorder_ok ha hb hc
    rcases h with h | h | ⟨ch, h1, h2⟩
    · exact absurd (by simpa using hp.len) h
    · exact absurd (List.Nodup.of_map _ hp.nodup) h
    · exact absurd (hm ch h1) h2

/-- The exceptions: `ValueError` for a letter that is not on the left, `IndexError` for one that names no axis, and
`ValueError` if the letters do not name every axis once. -/
theorem c42_exceptions {name : String} {shape : List Nat} {a b : List Char} (ha : Letters a) (hb : Letters b) :
    ((∃ ch ∈ b, ch ∉ a) → stdReorder name shape (arrow a b) = .error .valueError) ∧
    ((∀ ch ∈ b, ch ∈ a) → (∃ ch ∈ b, shape.length ≤ a.idxOf ch) →
      stdReorder name shape (arrow a b) = .error .indexError) ∧
    ((∀ ch ∈ b, ch ∈ a) → (∀ ch ∈ b, a.idxOf ch < shape.length) → b.length ≠ shape.length ∨ ¬ b.Nodup →
      stdReorder name shape (arrow a b) = .error .valueError) := by
  unfold stdReorder newAxesLocations
  rw [filter_arrow ha hb, splitArrow_nil ha hb]
  simp only
  refine ⟨fun ⟨ch, h1, h2⟩ => ?_, fun h1 ⟨ch, h2, h3⟩ => ?_, fun h1 h2 h3 => ?_⟩
  · rw [if_neg (fun h => h2 (h ch h1))]
  · rw [if_pos h1]
    simp only
    rw [if_pos ⟨_, List.mem_map.2 ⟨ch, h2, rfl⟩, h3⟩]
  · rw [if_pos h1]
    simp only
    rw [if_neg, if_pos]
    · refine h3.imp (by simp) fun h h' => h (List.Nodup.of_map _ h')
    · rintro ⟨k, hk, hle⟩
      obtain ⟨ch, hch, rfl⟩ := List.mem_map.1 hk
      exact absurd (h2 ch hch) (by omega)

theorem isAxisPerm_idxOf {n : Nat} {a b : List Char} (hn : a.length = n) (hd : a.Nodup) (hp : b.Perm a) :
    IsAxisPerm n (b.map a.idxOf) := by
  refine ⟨by simp [hp.length_eq, hn], ?_, ?_⟩
  · refine (List.nodup_map_iff_inj_on (hp.nodup_iff.2 hd)).2 fun x hx y _ he => ?_
    exact (List.idxOf_inj (hp.mem_iff.1 hx)).1 he
  · intro k hk
    obtain ⟨ch, hch, rfl⟩ := List.mem_map.1 hk
    rw [← hn]
    exact List.idxOf_lt_length_of_mem (hp.mem_iff.1 hch)

theorem stdReorder_accepts {name : String} {shape : List Nat} {a b : List Char} (ha : Letters a)
    (hn : a.length = shape.length) (hd : a.Nodup) (hp : b.Perm a) :
    stdReorder name shape (arrow a b) = .ok ⟨name, shape, b.map a.idxOf⟩ := by
  have hb : Letters b := fun ch h => ha ch (hp.mem_iff.1 h)
  have h1 := isAxisPerm_idxOf hn hd hp
  unfold stdReorder newAxesLocations
  rw [filter_arrow ha hb, splitArrow_nil ha hb]
  simp only
  rw [if_pos (show ∀ ch ∈ b, ch ∈ a from fun ch h => hp.mem_iff.1 h)]
  simp only
  rw [if_neg (by push Not; exact h1.lt), if_neg (by push Not; exact ⟨h1.len, h1.nodup⟩)]

/-- **C42**, inverse: every permutation of distinct letters is accepted, so is its inverse, and one after the
other is the identity. -/
theorem c42_inverse {name name' : String} {shape : List Nat} {a b : List Char} (ha : Letters a)
    (hn : a.length = shape.length) (hd : a.Nodup) (hp : b.Perm a) :
    ∃ c c', stdReorder name shape (arrow a b) = .ok c ∧
      stdReorder name' c.outShape (arrow b a) = .ok c' ∧ c'.outShape = shape ∧
      ∀ inp, ∀ r < prodShape shape, c'.compute (fun _ => c.compute inp) r = inp name r := by
  have hb : Letters b := fun ch h => ha ch (hp.mem_iff.1 h)
  have hdb := hp.nodup_iff.2 hd
  have h1 := isAxisPerm_idxOf hn hd hp
  have hc := stdReorder_accepts (name := name) ha hn hd hp
  have hc' := stdReorder_accepts (name := name') (shape := Reorder.outShape ⟨name, shape, b.map a.idxOf⟩)
    hb (by simp [Reorder.outShape]) hdb hp.symm
  have key : ∀ s : List Nat, s.length = a.length →
      (a.map fun ch => (b.map fun ch => s.getD (a.idxOf ch) 0).getD (b.idxOf ch) 0) = s := by
    intro s hs
    apply List.ext_getElem
    · simp [hs]
    · intro i h3 h4
      have h5 : i < a.length := by simpa using h3
      have h6 : a[i] ∈ b := hp.mem_iff.2 (List.getElem_mem h5)
      have h7 := List.idxOf_lt_length_of_mem h6
      simp [List.getD_eq_getElem?_getD, h7, hd.idxOf_getElem, h4]
  refine ⟨_, _, hc, hc', ?_, fun inp r hr => ?_⟩
  · rw [(c42_reorder hb ha hc').1, (c42_reorder ha hb hc).1, key shape hn.symm]
  · obtain ⟨hs2, _, hv2, _⟩ := c42_reorder hb ha hc'
    obtain ⟨hs1, _, hv1, _⟩ := c42_reorder ha hb hc
    have hi := unravel_inBounds hr
    obtain ⟨hi1, hv1⟩ := hv1 inp _ hi
    obtain ⟨_, hv2⟩ := hv2 (fun _ => Reorder.compute ⟨name, shape, b.map a.idxOf⟩ inp) _ hi1
    rw [key _ (by rw [unravel_length, hn])] at hv2
    have hs : Reorder.outShape ⟨name', Reorder.outShape ⟨name, shape, b.map a.idxOf⟩, a.map b.idxOf⟩ = shape := by
      rw [hs2, hs1, key shape hn.symm]
    rw [hv1, hs, ravel_unravel hr] at hv2
    exact hv2

example : ∃ c, stdReorder "x" [2, 3, 4] "ijk->kij".toList = .ok c ∧ c.outShape = [4, 2, 3] ∧
    ∀ inp, c.compute inp 1 = inp "x" 4 := ⟨_, rfl, rfl, fun _ => rfl⟩
example : Letters "ijk".toList ∧ "ijk->kij".toList = arrow "ijk".toList "kij".toList ∧
    "kij".toList.Perm "ijk".toList := by decide

/-! ## transpose -/

theorem isAxisPerm_reverse (n : Nat) : IsAxisPerm n (List.range n).reverse :=
  ⟨by simp, by simpa using List.nodup_range, by simp⟩

theorem reverse_axes (s : List Nat) :
    ((List.range s.length).reverse.map fun k => s.getD k 0) = s.reverse := by
  rw [List.map_reverse, map_getD_range]

/-- **C42**, transpose: the axes are reversed, the entry at the reversed multi-index is the entry of the operand,
the partials are exact, and transposing twice is the identity. -/
theorem c42_transpose (name name' : String) (shape : List Nat) (inp : String → Nat → ℝ) :
    (stdTranspose name shape).outShape = shape.reverse ∧
    (∀ idx, InBounds shape idx →
      (stdTranspose name shape).compute inp (ravel shape.reverse idx.reverse) = inp name (ravel shape idx)) ∧
    ExactPartials [(name, prodShape shape)] (prodShape shape.reverse) (stdTranspose name shape).compute
      (stdTranspose name shape).partials inp ∧
    ∀ r < prodShape shape, (stdTranspose name' shape.reverse).compute
      (fun _ => (stdTranspose name shape).compute inp) r = inp name r := by
  have hp := isAxisPerm_reverse shape.length
  have hv : ∀ (name : String) (shape : List Nat) (inp : String → Nat → ℝ) (idx), InBounds shape idx →
      (stdTranspose name shape).compute inp (ravel shape.reverse idx.reverse) = inp name (ravel shape idx) := by
    intro name shape inp idx hi
    have := npTranspose_ravel (isAxisPerm_reverse shape.length) hi (inp name)
    rw [reverse_axes] at this
    rw [← inBounds_length hi, reverse_axes, inBounds_length hi] at this
    exact this
  refine ⟨reverse_axes shape, hv name shape inp, ?_, fun r hr => ?_⟩
  · have := Reorder.exact (stdTranspose name shape) hp inp
    rwa [show (stdTranspose name shape).outShape = shape.reverse from reverse_axes shape] at this
  · have hi := unravel_inBounds hr
    have hi' : InBounds shape.reverse (unravel shape r).reverse := List.rel_reverse hi
    have h1 := hv name' shape.reverse (fun _ => (stdTranspose name shape).compute inp) _ hi'
    rw [List.reverse_reverse, List.reverse_reverse, ravel_unravel hr, hv name shape inp _ hi,
      ravel_unravel hr] at h1
    exact h1

example : (stdTranspose "x" [2, 3]).outShape = [3, 2] ∧
    ∀ inp, (stdTranspose "x" [2, 3]).compute inp 1 = inp "x" 3 := ⟨rfl, fun _ => rfl⟩

/-! ## reshape -/

/-- **C43**: reshape keeps the flat array and its Jacobian is the identity; sizes have to agree; there and back
is the identity. -/
theorem c43_reshape (name name' : String) (shape newShape : List Nat) :
    (prodShape newShape ≠ prodShape shape → stdReshape name shape newShape = .error .valueError) ∧
    (prodShape newShape = prodShape shape → ∃ c c', stdReshape name shape newShape = .ok c ∧
      stdReshape name' newShape shape = .ok c' ∧
      (∀ inp, ∀ r < prodShape newShape, c.compute inp r = inp name r ∧
        c'.compute (fun _ => c.compute inp) r = inp name r) ∧
      (∀ i < prodShape newShape, ∀ j < prodShape shape,
        Spec.entry (c.partials name) i j = if i = j then 1 else 0) ∧
      ∀ inp, ExactPartials [(name, prodShape shape)] (prodShape newShape) c.compute c.partials inp) := by
  refine ⟨fun h => if_neg h, fun h => ⟨⟨name, shape, newShape⟩, ⟨name', newShape, shape⟩, if_pos h,
    if_pos h.symm, fun _ _ _ => ⟨rfl, rfl⟩, ?_, fun inp => ?_⟩⟩
  · intro i hi j hj
    show cooEntry (List.range (prodShape shape)) (List.range (prodShape shape))
      (List.replicate (prodShape shape) 1) i j = _
    have hz : (List.range (prodShape shape)).zip ((List.range (prodShape shape)).zip
        (List.replicate (prodShape shape) (1 : ℝ))) = (List.range (prodShape shape)).map fun k => (k, k, 1) := by
      apply List.ext_getElem <;> simp
    unfold cooEntry
    rw [hz, List.map_map, sum_map_range, Finset.sum_eq_single i]
    · simp
    · intro k _ hk; simp [hk]
    · intro h'; exact absurd (Finset.mem_range.2 (h ▸ hi)) h'
  · rw [h]
    refine gather_linear (fun r => r) (fun _ h => h) (fun _ _ _ => rfl) ?_
    show Coo.mk _ _ _ = _
    simp [List.map_const']

example : ∃ c, stdReshape "x" [2, 3] [3, 2] = .ok c := ⟨_, rfl⟩

/-! ## expand -/

theorem npDelete_getD (axes l : List Nat) :
    npDelete axes l = ((List.range l.length).filter fun i => decide (i ∉ axes)).map fun i => l.getD i 0 := by
  unfold npDelete
  rw [List.zipIdx_eq_zip_range', ← List.range_eq_range']
  have : l.zip (List.range l.length) = (List.range l.length).map fun i => (l.getD i 0, i) := by
    apply List.ext_getElem
    · simp
    · intro i h1 h2
      have : i < l.length := by simpa using h2
      simp [List.getD_eq_getElem?_getD, this]
  rw [this, List.filter_map, List.map_map]
  rfl

theorem npDelete_expand {a b : List Char} (hb : b.Nodup) {l : List Nat} (hl : l.length = b.length) :
    npDelete (expandIndicesOf a b) l =
      (b.filter fun ch => decide (ch ∈ a)).map fun ch => l.getD (b.idxOf ch) 0 := by
  rw [npDelete_getD]
  have hbr : b = (List.range b.length).map fun i => b.getD i ' ' := (map_getD_range b ' ').symm
  conv_rhs => rw [hbr, List.filter_map, List.map_map, ← hbr]
  rw [hl]
  have : (List.range b.length).filter (fun i => decide (i ∉ expandIndicesOf a b)) =
      (List.range b.length).filter ((fun ch => decide (ch ∈ a)) ∘ fun i => b.getD i ' ') := by
    refine List.filter_congr fun i hi => ?_
    have hi := List.mem_range.1 hi
    simp [expandIndicesOf, hi]
  rw [this]
  refine List.map_congr_left fun i hi => ?_
  have hi : i < b.length := List.mem_range.1 (List.mem_filter.1 hi).1
  simp [List.getD_eq_getElem?_getD, hi, hb.idxOf_getElem]

theorem stdExpand_ok {name : String} {inShape shape : List Nat} {indices : Option (List Char)} {c : Expand}
    (h : stdExpand name inShape shape indices = .ok c) :
    c.name = name ∧ c.inShape = inShape ∧ c.shape = shape ∧
    ((c.scalar = true ∧ inShape = [1]) ∨
      (c.scalar = false ∧ inShape ≠ [1] ∧ npDelete c.expandIndices shape = inShape ∧
        ∀ a b, Letters a → Letters b → indices = some (arrow a b) → c.expandIndices = expandIndicesOf a b)) := by
  unfold stdExpand at h
  split at h
  · split at h
    · rename_i h1
      obtain rfl := Except.ok.inj h
      exact ⟨rfl, rfl, rfl, .inl ⟨rfl, h1⟩⟩
    · cases h
  · rename_i str
    split at h
    · rename_i in_ out hs
      split at h
      · rename_i h1
        obtain rfl := Except.ok.inj h
        exact ⟨rfl, rfl, rfl, .inl ⟨rfl, h1⟩⟩
      · rename_i h1
        unfold decomposeShape at h
        split at h
        · cases h
        · rename_i sel hsel
          split at hsel
          · cases hsel
          · obtain rfl := Except.ok.inj hsel
            split at h
            · cases h
            · rename_i h2
              obtain rfl := Except.ok.inj h
              refine ⟨rfl, rfl, rfl, .inr ⟨rfl, h1, not_not.1 h2, fun a b ha hb he => ?_⟩⟩
              obtain rfl := Option.some.inj he
              rw [splitArrow_nil ha hb] at hs
              simp only [List.cons.injEq, and_true] at hs
              rw [hs.1, hs.2]
    · cases h

/-- **C41**, derivatives: whatever is accepted, the partials are exact. -/
theorem c41_exact {name : String} {inShape shape : List Nat} {indices : Option (List Char)} {c : Expand}
    (h : stdExpand name inShape shape indices = .ok c) (inp : String → Nat → ℝ) :
    ExactPartials [(name, prodShape inShape)] (prodShape shape) c.compute c.partials inp := by
  obtain ⟨rfl, rfl, rfl, hc⟩ := stdExpand_ok h
  refine gather_linear c.col (fun r hr => ?_) (fun _ _ _ => rfl) rfl
  rcases hc with ⟨hs, h1⟩ | ⟨hs, _, h2, _⟩
  · simp [Expand.col, hs, h1, prodShape]
  · simp only [Expand.col, hs, Bool.false_eq_true, if_false]
    rw [← h2]
    exact redRow_lt hr

/-- **C41**, an input of shape `(1,)` is copied to every entry. -/
theorem c41_scalar (name : String) (shape : List Nat) :
    ∃ c, stdExpand name [1] shape none = .ok c ∧ ∀ inp r, c.compute inp r = inp name 0 :=
  ⟨⟨name, [1], shape, [], true⟩, rfl, fun _ _ => rfl⟩

/-- What is computed: the letters on the left are used in the order in which they occur on the right. -/
theorem c41_code {name : String} {inShape shape : List Nat} {a b : List Char} (ha : Letters a) (hb : Letters b)
    (hd : b.Nodup) (hl : b.length = shape.length) (hi : inShape ≠ [1]) {c : Expand}
    (h : stdExpand name inShape shape (some (arrow a b)) = .ok c) :
    inShape = (b.filter fun ch => decide (ch ∈ a)).map (fun ch => shape.getD (b.idxOf ch) 0) ∧
    ∀ inp idx, InBounds shape idx → c.compute inp (ravel shape idx) = inp name
      (ravel inShape ((b.filter fun ch => decide (ch ∈ a)).map fun ch => idx.getD (b.idxOf ch) 0)) := by
  obtain ⟨rfl, rfl, rfl, hc⟩ := stdExpand_ok h
  rcases hc with ⟨_, h1⟩ | ⟨hs, _, h2, h3⟩
  · exact absurd h1 hi
  · have h3 := h3 a b ha hb rfl
    refine ⟨by rw [← h2, h3, npDelete_expand hd hl.symm], fun inp idx hx => ?_⟩
    simp only [Expand.compute, Expand.col, hs, Bool.false_eq_true, if_false, redRow]
    rw [unravel_ravel hx, h2, h3, npDelete_expand hd (by rw [inBounds_length hx, hl])]

/-- **C41**, partial: if the letters on the left occur on the right in the same order, the entry at each
multi-index is the entry of the source at the indices named on the left. Missing: other orders, for which the
claim is false (`c41_permuted`). -/
theorem c41_value_partial {name : String} {inShape shape : List Nat} {a b : List Char} (ha : Letters a)
    (hb : Letters b) (hd : b.Nodup) (hl : b.length = shape.length) (hi : inShape ≠ [1])
    (hab : a.Sublist b) {c : Expand}
    (h : stdExpand name inShape shape (some (arrow a b)) = .ok c) :
    inShape = a.map (fun ch => shape.getD (b.idxOf ch) 0) ∧
    ∀ inp idx, InBounds shape idx → c.compute inp (ravel shape idx) = inp name
      (ravel inShape (a.map fun ch => idx.getD (b.idxOf ch) 0)) := by
  have hf : (b.filter fun ch => decide (ch ∈ a)) = a := by
    clear h hl ha hb
    induction hab with
    | slnil => rfl
    | @cons l₁ l₂ x hs ih =>
      have hx : x ∉ l₁ := fun hx => (List.nodup_cons.1 hd).1 (hs.subset hx)
      rw [List.filter_cons, if_neg (by simpa using hx)]
      exact ih (List.nodup_cons.1 hd).2
    | @cons_cons l₁ l₂ x hs ih =>
      rw [List.filter_cons, if_pos (by simp)]
      have hx := (List.nodup_cons.1 hd).1
      rw [List.filter_congr (q := fun ch => decide (ch ∈ l₁)), ih (List.nodup_cons.1 hd).2]
      intro ch hch
      have : ch ≠ x := fun e => hx (e ▸ hch)
      simp [this]
  have := c41_code ha hb hd hl hi h
  rwa [hf] at this

example : ∃ c, stdExpand "x" [2, 3] [2, 4, 3] (some (arrow "ij".toList "ikj".toList)) = .ok c ∧
    c.shape = [2, 4, 3] := ⟨_, rfl, rfl⟩
example : Letters "ij".toList ∧ Letters "ikj".toList ∧ "ikj".toList.Nodup ∧
    "ij".toList.Sublist "ikj".toList := by decide

/-- **C41**, what is accepted: with at most ten axes, exactly the operands whose axes have the lengths of the axes of
the result with the same letters, in the order in which they occur on the right. -/
theorem c41_accepted {name : String} {inShape shape : List Nat} {a b : List Char} (ha : Letters a)
    (hb : Letters b) (hd : b.Nodup) (hl : b.length = shape.length) (hi : inShape ≠ [1]) :
    (∃ c, stdExpand name inShape shape (some (arrow a b)) = .ok c) ↔
      shape.length ≤ 10 ∧
      inShape = (b.filter fun ch => decide (ch ∈ a)).map fun ch => shape.getD (b.idxOf ch) 0 := by
  constructor
  · rintro ⟨c, h⟩
    refine ⟨?_, (c41_code ha hb hd hl hi h).1⟩
    unfold stdExpand at h
    simp only at h
    rw [splitArrow_nil ha hb] at h
    simp only at h
    rw [if_neg hi] at h
    unfold decomposeShape at h
    by_contra h10
    rw [if_pos (by omega)] at h
    cases h
  · rintro ⟨h10, rfl⟩
    unfold stdExpand
    simp only
    rw [splitArrow_nil ha hb]
    simp only
    rw [if_neg hi]
    unfold decomposeShape
    rw [if_neg (by omega)]
    simp only
    rw [if_neg]
    · exact ⟨_, rfl⟩
    · rw [not_not, npDelete_expand hd hl.symm]

/-- The claim is false whenever the letters on the left, all of them on the right, do not occur there in the same
order and no axis has length one: if the call is accepted, as it is when the lengths happen to agree
(`c41_accepted`), some entry is not the one at the indices named on the left. -/
theorem c41_permuted {name : String} {inShape shape : List Nat} {a b : List Char} (ha : Letters a) (hb : Letters b)
    (hda : a.Nodup) (hd : b.Nodup) (hl : b.length = shape.length) (hi : inShape ≠ [1]) (hab : ∀ ch ∈ a, ch ∈ b)
    (hn : ¬ a.Sublist b) (h2 : ∀ n ∈ shape, 2 ≤ n) {c : Expand} (h : stdExpand name inShape shape (some (arrow a b)) = .ok c) :
    ∃ inp idx, InBounds shape idx ∧ c.compute inp (ravel shape idx) ≠
      inp name (ravel inShape (a.map fun ch => idx.getD (b.idxOf ch) 0)) := by
  have hsh : ∀ ch ∈ b, 2 ≤ shape.getD (b.idxOf ch) 0 := by
    intro ch hch
    have := List.idxOf_lt_length_of_mem hch
    rw [List.getD_eq_getElem _ _ (by omega)]
    exact h2 _ (List.getElem_mem _)
  have hf : (b.filter fun ch => decide (ch ∈ a)).Perm a := by
    rw [List.perm_ext_iff_of_nodup (hd.filter _) hda]
    intro ch
    simp only [List.mem_filter, decide_eq_true_eq]
    exact ⟨And.right, fun h => ⟨hab ch h, h⟩⟩
  have hne : (b.filter fun ch => decide (ch ∈ a)) ≠ a := fun e => hn (e ▸ List.filter_sublist)
  obtain ⟨p, hp⟩ : ∃ p : Nat, (b.filter fun ch => decide (ch ∈ a))[p]? ≠ a[p]? := by
    by_contra hcon
    exact hne (List.ext_getElem? fun p => by by_contra hx; exact hcon ⟨p, hx⟩)
  have hlen := hf.length_eq
  have hpl : p < a.length := by
    by_contra hx
    exact hp (by rw [List.getElem?_eq_none (by omega), List.getElem?_eq_none (by omega)])
  obtain ⟨hin, hval⟩ := c41_code ha hb hd hl hi h
  let x := a[p]
  let idx := b.map fun ch => if ch = x then 1 else 0
  have hidx : ∀ ch ∈ b, idx.getD (b.idxOf ch) 0 = if ch = x then 1 else 0 := by
    intro ch hch
    have h1 := List.idxOf_lt_length_of_mem hch
    rw [List.getD_eq_getElem _ _ (by simpa [idx] using h1)]
    simp only [idx, List.getElem_map, List.getElem_idxOf]
  have hib : InBounds shape idx := by
    refine inBounds_of_getD (by simp [idx, hl]) fun k hk => ?_
    rw [getD_map ' ' 0 (by omega)]
    have : 2 ≤ shape.getD k 0 := by
      rw [List.getD_eq_getElem _ _ hk]
      exact h2 _ (List.getElem_mem _)
    split <;> omega
  have hbd : ∀ l : List Char, (∀ ch ∈ l, ch ∈ b) → l.length = a.length →
      InBounds inShape (l.map fun ch => idx.getD (b.idxOf ch) 0) := by
    intro l hlb hll
    refine inBounds_of_getD (by simp [hin, hll, hlen]) fun k hk => ?_
    have hk' : k < (b.filter fun ch => decide (ch ∈ a)).length := by simpa [hin] using hk
    rw [getD_map ' ' 0 (by omega), hin, getD_map ' ' 0 hk']
    have h1 := hsh _ (List.mem_of_mem_filter (List.getElem_mem hk'))
    rw [← List.getD_eq_getElem _ ' ' hk'] at h1
    have hm : l.getD k ' ' ∈ l := by
      rw [List.getD_eq_getElem _ _ (by omega)]
      exact List.getElem_mem _
    rw [hidx _ (hlb _ hm)]
    split <;> omega
  refine ⟨fun _ k => if k = ravel inShape (a.map fun ch => idx.getD (b.idxOf ch) 0) then 1 else 0, idx, hib, ?_⟩
  rw [hval _ _ hib]
  show (if _ then (1 : ℝ) else 0) ≠ if _ then 1 else 0
  rw [if_pos rfl, if_neg]
  · exact zero_ne_one
  intro e
  have e := ravel_inj (hbd _ (fun ch hch => List.mem_of_mem_filter hch) hlen) (hbd a hab rfl) e
  have hpf : p < (b.filter fun ch => decide (ch ∈ a)).length := by omega
  have e := congrArg (fun l => l[p]?) e
  simp only [List.getElem?_map, List.getElem?_eq_getElem hpf, List.getElem?_eq_getElem hpl, Option.map_some,
    Option.some.injEq] at e
  rw [hidx _ (List.mem_of_mem_filter (List.getElem_mem hpf)), hidx _ (hab _ (List.getElem_mem hpl)),
    if_pos rfl] at e
  refine hp ?_
  rw [List.getElem?_eq_getElem hpf, List.getElem?_eq_getElem hpl]
  by_contra hx
  rw [if_neg fun e => hx (congrArg some e)] at e
  exact zero_ne_one e

example : (∃ c, stdExpand "x" [2, 2] [2, 2, 3] (some (arrow "ij".toList "jik".toList)) = .ok c) ∧
    Letters "ij".toList ∧ Letters "jik".toList ∧ "ij".toList.Nodup ∧ "jik".toList.Nodup ∧
    (∀ ch ∈ "ij".toList, ch ∈ "jik".toList) ∧ ¬ "ij".toList.Sublist "jik".toList :=
  ⟨⟨_, rfl⟩, by decide⟩

/-- The number of axes is not checked: a string `a -> b` naming fewer axes than the result has is accepted for
any result with at most ten, if the operand has the lengths of the axes it names in their order on the right,
followed by those that `b` does not name. -/
theorem c41_rank_unchecked {name : String} {shape : List Nat} {a b : List Char} (ha : Letters a) (hb : Letters b)
    (hd : b.Nodup) (hl : b.length < shape.length) (h10 : shape.length ≤ 10) :
    ∃ c, stdExpand name ((b.filter fun ch => decide (ch ∈ a)).map (fun ch => shape.getD (b.idxOf ch) 0) ++
      shape.drop b.length) shape (some (arrow a b)) = .ok c := by
  have hdel : npDelete (expandIndicesOf a b) shape =
      (b.filter fun ch => decide (ch ∈ a)).map (fun ch => shape.getD (b.idxOf ch) 0) ++ shape.drop b.length := by
    have h1 := npDelete_expand (a := a) hd (l := shape.take b.length) (by simp; omega)
    have h2 : npDelete (expandIndicesOf a b) (shape.take b.length ++ shape.drop b.length) =
        npDelete (expandIndicesOf a b) (shape.take b.length) ++ shape.drop b.length := by
      unfold npDelete
      rw [List.zipIdx_append, List.filter_append, List.map_append, List.append_cancel_left_eq,
        List.filter_eq_self.2, List.zipIdx_map_fst]
      intro q hq
      have := List.le_snd_of_mem_zipIdx hq
      simp only [List.length_take] at this
      simp only [expandIndicesOf, decide_eq_true_eq, List.mem_filter, List.mem_range, not_and]
      omega
    rw [List.take_append_drop] at h2
    rw [h2, h1, List.append_cancel_right_eq]
    refine List.map_congr_left fun ch hch => ?_
    have := List.idxOf_lt_length_of_mem (List.mem_of_mem_filter hch)
    simp [List.getD_eq_getElem?_getD, List.getElem?_take, this]
  unfold stdExpand
  simp only
  rw [splitArrow_nil ha hb]
  simp only
  split
  · exact ⟨_, rfl⟩
  · unfold decomposeShape
    rw [if_neg (by omega)]
    simp only
    rw [if_neg (by rw [not_not, hdel])]
    exact ⟨_, rfl⟩

example : ∃ c, stdExpand "x" [3, 5] [3, 4, 5] (some (arrow "i".toList "ij".toList)) = .ok c := ⟨_, rfl⟩

end OM
