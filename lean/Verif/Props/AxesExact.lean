import Verif.Props.Axes

/-!
# Exactly when `expand` honours its index string (C41)
-/

namespace OM
open Spec

theorem filter_mem_of_sublist {a b : List Char} (hd : b.Nodup) (h : a.Sublist b) :
    (b.filter fun ch => decide (ch ∈ a)) = a := by
  induction h with
  | slnil => rfl
  | cons x h ih =>
    rw [List.filter_cons_of_neg, ih (List.nodup_cons.1 hd).2]
    simpa using fun hx => (List.nodup_cons.1 hd).1 (h.subset hx)
  | cons_cons x h ih =>
    rw [List.filter_cons_of_pos (by simp)]
    congr 1
    rw [← ih (List.nodup_cons.1 hd).2]
    refine List.filter_congr fun y hy => ?_
    have : y ≠ x := fun e => (List.nodup_cons.1 hd).1 (e ▸ hy)
    rw [ih (List.nodup_cons.1 hd).2]
    simp [this]

theorem prodShape_filter (l : List Char) (len : Char → Nat) :
    prodShape (l.map len) = prodShape ((l.filter fun ch => decide (len ch ≠ 1)).map len) := by
  induction l with
  | nil => rfl
  | cons x l ih =>
    unfold prodShape at *
    by_cases h : len x = 1
    · rw [List.filter_cons_of_neg (by simp [h]), List.map_cons, List.prod_cons, ih, h, one_mul]
    · rw [List.filter_cons_of_pos (by simp [h]), List.map_cons, List.map_cons, List.prod_cons, List.prod_cons, ih]

/-- Axes of length one do not count. -/
theorem ravel_filter (l : List Char) (len i : Char → Nat) (h : ∀ ch ∈ l, i ch < len ch) :
    ravel (l.map len) (l.map i) = ravel ((l.filter fun ch => decide (len ch ≠ 1)).map len)
      ((l.filter fun ch => decide (len ch ≠ 1)).map i) := by
  induction l with
  | nil => rfl
  | cons x l ih =>
    have ih := ih fun ch hch => h ch (by simp [hch])
    by_cases h1 : len x = 1
    · have h0 : i x = 0 := by have := h x (by simp); omega
      rw [List.filter_cons_of_neg (by simp [h1]), List.map_cons, List.map_cons, ravel, ih, h0, Nat.zero_mul, Nat.zero_add]
    · rw [List.filter_cons_of_pos (by simp [h1]), List.map_cons, List.map_cons, List.map_cons, List.map_cons, ravel,
        ravel, ih, prodShape_filter]

theorem filter_eq_of_agree {p : Char → Bool} : ∀ {l l' : List Char}, l.length = l'.length →
    (∀ (k : Nat) (h : k < l.length) (h' : k < l'.length), (p l[k] = true ∨ p l'[k] = true) → l[k] = l'[k]) →
    l.filter p = l'.filter p
  | [], [], _, _ => rfl
  | x :: l, y :: l', hlen, h => by
    have ih := filter_eq_of_agree (p := p) (l := l) (l' := l') (by simpa using hlen) fun k hk hk' hp =>
      h (k + 1) (by simpa using hk) (by simpa using hk') hp
    have h0 := h 0 (by simp) (by simp)
    simp only [List.getElem_cons_zero] at h0
    by_cases hx : p x = true
    · obtain rfl := h0 (.inl hx)
      rw [List.filter_cons_of_pos hx, List.filter_cons_of_pos hx, ih]
    · by_cases hy : p y = true
      · exact absurd (h0 (.inr hy) ▸ hy) hx
      · rw [List.filter_cons_of_neg hx, List.filter_cons_of_neg hy, ih]

/-- **C41, exactly.** Among the calls that name each axis of the result once, and axes of the operand with their
lengths, an accepted one gives the entry at the indices named on the left, for all values and all indices, if and only if
the letters on the left whose axes are longer than one occur on the right in the same order. -/
theorem c41_exactly {name : String} {inShape shape : List Nat} {a b : List Char} (ha : Letters a) (hb : Letters b)
    (hda : a.Nodup) (hd : b.Nodup) (hl : b.length = shape.length) (hi : inShape ≠ [1]) (hab : ∀ ch ∈ a, ch ∈ b)
    (hpos : ∀ n ∈ shape, 0 < n) (hin : inShape = a.map fun ch => shape.getD (b.idxOf ch) 0) {c : Expand}
    (h : stdExpand name inShape shape (some (arrow a b)) = .ok c) :
    (∀ inp idx, InBounds shape idx → c.compute inp (ravel shape idx) =
      inp name (ravel inShape (a.map fun ch => idx.getD (b.idxOf ch) 0))) ↔
    (a.filter fun ch => decide (shape.getD (b.idxOf ch) 0 ≠ 1)).Sublist b := by
  obtain ⟨hin', hval⟩ := c41_code ha hb hd hl hi h
  set fa := b.filter fun ch => decide (ch ∈ a) with hfa
  set len : Char → Nat := fun ch => shape.getD (b.idxOf ch) 0 with hlen
  have hf : fa.Perm a := by
    rw [List.perm_ext_iff_of_nodup (hd.filter _) hda]
    intro ch
    simp only [List.mem_filter, decide_eq_true_eq]
    exact ⟨And.right, fun h => ⟨hab ch h, h⟩⟩
  have hlp : ∀ ch ∈ b, 0 < len ch := by
    intro ch hch
    have := List.idxOf_lt_length_of_mem hch
    simp only [hlen]
    rw [List.getD_eq_getElem _ _ (by omega)]
    exact hpos _ (List.getElem_mem _)
  have hbound : ∀ idx, InBounds shape idx → ∀ ch ∈ b, idx.getD (b.idxOf ch) 0 < len ch := by
    intro idx hx ch hch
    have h1 := List.idxOf_lt_length_of_mem hch
    have h2 := inBounds_length hx
    simp only [hlen]
    rw [List.getD_eq_getElem _ _ (by omega), List.getD_eq_getElem _ _ (by omega)]
    exact List.Forall₂.get hx (by omega) (by omega)
  have hsub : (a.filter fun ch => decide (len ch ≠ 1)).Sublist b ↔
      fa.filter (fun ch => decide (len ch ≠ 1)) = a.filter fun ch => decide (len ch ≠ 1) := by
    constructor
    · intro hs
      rw [← filter_mem_of_sublist hd hs, hfa, List.filter_filter]
      refine List.filter_congr fun ch hch => ?_
      by_cases h1 : len ch = 1 <;> simp [h1]
    · intro e
      rw [← e]
      exact (List.filter_sublist ..).trans (List.filter_sublist ..)
  have hfab : ∀ ch ∈ fa, ch ∈ b := fun ch hch => List.mem_of_mem_filter hch
  constructor
  · intro hcl
    rw [hsub]
    refine filter_eq_of_agree hf.length_eq fun k hk hk' hor => ?_
    -- the letter whose index is one
    have main : ∀ x ∈ b, len x ≠ 1 → (fa[k] = x ↔ a[k] = x) := by
      intro x hx h1
      let idx := b.map fun ch => if ch = x then 1 else 0
      have hidx : ∀ ch ∈ b, idx.getD (b.idxOf ch) 0 = if ch = x then 1 else 0 := by
        intro ch hch
        have h1 := List.idxOf_lt_length_of_mem hch
        rw [List.getD_eq_getElem _ _ (by simpa [idx] using h1)]
        simp only [idx, List.getElem_map, List.getElem_idxOf]
      have hib : InBounds shape idx := by
        refine inBounds_of_getD (by simp [idx, hl]) fun q hq => ?_
        have hq' : q < b.length := by omega
        rw [getD_map ' ' 0 hq', List.getD_eq_getElem _ _ hq']
        have h2 := hlp _ (List.getElem_mem hq')
        have h3 : len b[q] = shape.getD q 0 := by
          simp only [hlen, hd.idxOf_getElem q hq']
        split
        · rename_i e
          rw [e] at h3 h2
          omega
        · omega
      have hbd : ∀ l : List Char, (∀ ch ∈ l, ch ∈ b) → inShape = l.map len →
          InBounds inShape (l.map fun ch => idx.getD (b.idxOf ch) 0) := by
        intro l hlb hll
        rw [hll]
        unfold InBounds
        rw [List.forall₂_map_left_iff, List.forall₂_map_right_iff, List.forall₂_same]
        exact fun ch hch => hbound idx hib ch (hlb ch hch)
      have e := hcl (fun _ q => if q = ravel inShape (a.map fun ch => idx.getD (b.idxOf ch) 0) then 1 else 0) idx hib
      rw [hval _ _ hib, if_pos rfl] at e
      have e : ravel inShape (fa.map fun ch => idx.getD (b.idxOf ch) 0) =
          ravel inShape (a.map fun ch => idx.getD (b.idxOf ch) 0) := by
        by_contra hne
        rw [if_neg hne] at e
        exact zero_ne_one e
      have e := congrArg (fun l => l[k]?) (ravel_inj (hbd _ hfab hin') (hbd a hab hin) e)
      simp only [List.getElem?_map, List.getElem?_eq_getElem hk, List.getElem?_eq_getElem hk', Option.map_some,
        Option.some.injEq] at e
      rw [hidx _ (hfab _ (List.getElem_mem hk)), hidx _ (hab _ (List.getElem_mem hk'))] at e
      by_cases e1 : fa[k] = x <;> by_cases e2 : a[k] = x <;> simp_all
    rcases hor with hp | hp
    · exact ((main _ (hfab _ (List.getElem_mem hk)) (by simpa using hp)).1 rfl).symm
    · exact (main _ (hab _ (List.getElem_mem hk')) (by simpa using hp)).2 rfl
  · intro hs inp idx hx
    rw [hval inp idx hx]
    congr 1
    conv_lhs => rw [hin']
    conv_rhs => rw [hin]
    rw [ravel_filter fa len _ fun ch hch => hbound idx hx ch (hfab ch hch), ravel_filter a len _ fun ch hch => hbound idx hx ch (hab ch hch),
      hsub.1 hs]

/-- Both cases occur with letters in another order: right if only axes of length one are out of order, … -/
example : (∃ c, stdExpand "x" [1, 2, 1] [1, 2, 1, 3] (some (arrow "ijk".toList "kjil".toList)) = .ok c) ∧
    [1, 2, 1] = "ijk".toList.map (fun ch => [1, 2, 1, 3].getD ("kjil".toList.idxOf ch) 0) ∧
    ¬ "ijk".toList.Sublist "kjil".toList ∧
    ("ijk".toList.filter fun ch => decide ([1, 2, 1, 3].getD ("kjil".toList.idxOf ch) 0 ≠ 1)).Sublist "kjil".toList :=
  ⟨⟨_, rfl⟩, by decide⟩

/-- … and wrong for longer ones. -/
example : (∃ c, stdExpand "x" [2, 1, 2] [2, 1, 2, 3] (some (arrow "ijk".toList "kjil".toList)) = .ok c) ∧
    [2, 1, 2] = "ijk".toList.map (fun ch => [2, 1, 2, 3].getD ("kjil".toList.idxOf ch) 0) ∧
    ¬ ("ijk".toList.filter fun ch => decide ([2, 1, 2, 3].getD ("kjil".toList.idxOf ch) 0 ≠ 1)).Sublist "kjil".toList :=
  ⟨⟨_, rfl⟩, by decide⟩

end OM
