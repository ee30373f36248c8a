import Verif.Lemmas.Getitem
import Verif.Lemmas.Jacobian

/-! # Indexing expressions (C19, C20, C22) -/

namespace OM
open Spec

/-! ## One axis -/

theorem map_ofNat_toNat {l : List Int} (h : ∀ i ∈ l, 0 ≤ i) : (l.map Int.toNat).map Int.ofNat = l := by
  rw [List.map_map]
  conv_rhs => rw [← List.map_id l]
  apply List.map_congr_left
  intro i hi
  have := h i hi
  simp [this]

theorem sliceToList_nosize {a b : Int} {s : Option Int} {l : List Int}
    (h : sliceToList (some a) (some b) s none = .ok l) :
    0 ≤ b ∧ checkedRange a b (s.getD 1) = .ok l := by
  unfold sliceToList at h
  simp only [Option.getD_some] at h
  split at h
  · cases h
  · exact ⟨by omega, h⟩

theorem item_sound {n : Nat} {e : KeyItem} {l : List Int}
    (h : sliceToList (some (normItem n e).1) (some (normItem n e).2.1) (normItem n e).2.2 none = .ok l)
    (hb : ∀ i ∈ l, 0 ≤ i ∧ i < (n : Int)) :
    ItemSelects n e (l.map Int.toNat) ∧ (normItem n e).2.2 ≠ some 0 ∧
      (npSlice n (some (normItem n e).1) (some (normItem n e).2.1) (normItem n e).2.2).length =
        l.length := by
  obtain ⟨hb0, hc⟩ := sliceToList_nosize h
  have hmap := map_ofNat_toNat (l := l) fun i hi => (hb i hi).1
  have hk := (checkedRange_ok hc).1
  refine ⟨?_, ?_, ?_⟩
  · cases e with
    | int k =>
      simp only [normItem] at hc hb0
      obtain ⟨-, hl, hne, -⟩ := checkedRange_ok hc
      have hr := pyRange_isRange k (k + 1) 1 (by decide)
      have h1 : IsRange k (k + 1) 1 [k] :=
        ⟨fun i hi => by
          have : i = 0 := by simpa using hi
          subst this; simp, by simp, by simp⟩
      have hl' : l = [k] := by
        rw [hl]; exact isRange_unique hr h1
      subst hl'
      have := hb k (by simp)
      exact ⟨this.1, this.2, rfl⟩
    | slice a b s =>
      simp only [normItem] at hc hb0
      show Selects n a b (s.getD 1) _
      rw [hmap]
      have hcs : codeStop n b = b.getD n := by
        unfold codeStop
        cases b with
        | none => rfl
        | some j => simp only [Option.getD_some] at hb0 ⊢; rw [if_neg (by omega)]
      exact sliceToList_selects (by rw [hcs]; exact hb0) (by rw [hcs]; exact hc)
        fun x hx => (hb x hx).2
  · intro h0
    rw [h0] at hk
    exact hk rfl
  · have hsel : Selects n (some (normItem n e).1) (some (normItem n e).2.1)
        ((normItem n e).2.2.getD 1) l := by
      have hcs : codeStop n (some (normItem n e).2.1) = (normItem n e).2.1 := by
        unfold codeStop; simp only; rw [if_neg (by omega)]
      exact sliceToList_selects (by rw [hcs]; exact hb0) (by rw [hcs]; exact hc)
        fun x hx => (hb x hx).2
    rw [← hmap] at hsel
    rw [npSlice_of_selects hk hsel, List.length_map]

/-- A key item within an axis of length `n`: an integer, or a slice with non-negative bounds that
selects something and, if its step is negative, has both bounds. -/
def ItemInRange (n : Nat) : KeyItem → Prop
  | .int k => 0 ≤ k ∧ k < n
  | .slice a b s => (∀ i ∈ a, 0 ≤ i ∧ i < n) ∧ (∀ j ∈ b, 0 ≤ j ∧ j ≤ n) ∧ s.getD 1 ≠ 0 ∧
      (s.getD 1 < 0 → a.isSome ∧ b.isSome) ∧ ¬ Selects n a b (s.getD 1) []

theorem item_complete {n : Nat} {e : KeyItem} (h : ItemInRange n e) :
    ∃ l, sliceToList (some (normItem n e).1) (some (normItem n e).2.1) (normItem n e).2.2 none = .ok l ∧
      ∀ i ∈ l, 0 ≤ i ∧ i < (n : Int) := by
  have hint : ∀ {a b : Int} {s : Option Int} {l : List Int}, 0 ≤ b → checkedRange a b (s.getD 1) = .ok l →
      sliceToList (some a) (some b) s none = .ok l := by
    intro a b s l hb hc
    unfold sliceToList
    simp only [Option.getD_some]
    rw [if_neg (by omega)]
    exact hc
  cases e with
  | int k =>
    obtain ⟨h1, h2⟩ := h
    have hr : IsRange k (k + 1) 1 [k] :=
      ⟨fun i hi => by
        have : i = 0 := by simpa using hi
        subst this; simp, by simp, by simp⟩
    refine ⟨[k], hint (by simp only [normItem]; omega)
      (checkedRange_of (by simp [normItem]) h1 (fun h => by simp [normItem] at h) hr (by simp)), ?_⟩
    simp [h1, h2]
  | slice a b s =>
    obtain ⟨ha, hb, hk, hneg, hne⟩ := h
    simp only [normItem]
    have ha0 : 0 ≤ a.getD 0 := by
      cases a with
      | none => simp
      | some i => exact (ha i rfl).1
    have hb0 : 0 ≤ b.getD n := by
      cases b with
      | none => simp
      | some i => exact (hb i rfl).1
    have hbn : b.getD n ≤ n := by
      cases b with
      | none => simp
      | some i => exact (hb i rfl).2
    have hne' : pyRange (sliceStart n a (s.getD 1)) (sliceStop n b (s.getD 1)) (s.getD 1) ≠ [] := by
      intro h0
      apply hne
      unfold Selects
      rw [← h0]
      exact pyRange_isRange _ _ _ hk
    generalize hgen : s.getD 1 = k at *
    have hr0 := pyRange_isRange (sliceStart n a k) (sliceStop n b k) k hk
    have hpos : 0 < (pyRange (sliceStart n a k) (sliceStop n b k) k).length :=
      List.length_pos_of_ne_nil hne'
    have h0 := hr0.before _ (List.getElem_mem hpos)
    rw [hr0.elems 0 hpos] at h0
    have hsa : sliceStart n a k = a.getD 0 := by
      unfold sliceStart
      cases a with
      | none =>
        simp only [Option.getD_none]
        by_cases h1 : 0 < k
        · simp [h1]
        · have := (hneg (by omega)).1
          simp at this
      | some i =>
        have := ha i rfl
        simp only [Option.getD_some]
        rw [if_neg (show ¬ i < 0 by omega)]
        split <;> omega
    have hsb : sliceStop n b k = b.getD n := by
      unfold sliceStop at h0 ⊢
      cases b with
      | none =>
        simp only [Option.getD_none]
        by_cases h1 : 0 < k
        · simp [h1]
        · have := (hneg (by omega)).2
          simp at this
      | some j =>
        have := hb j rfl
        simp only [Option.getD_some] at *
        rw [if_neg (show ¬ j < 0 by omega)] at *
        by_cases h1 : 0 < k
        · rw [if_pos h1]; omega
        · simp only [h1, if_false] at h0 ⊢
          have han : sliceStart n a k ≤ n - 1 := by
            rw [hsa]
            cases a with
            | none => have := (hneg (by omega)).1; simp at this
            | some i => have := ha i rfl; simp only [Option.getD_some]; omega
          simp only [Nat.cast_zero, zero_mul, add_zero] at h0
          omega
    rw [hsa, hsb] at hr0 hne'
    refine ⟨_, hint hb0 (by rw [hgen]; exact checkedRange_of hk ha0 (fun _ => by omega) hr0 hne'), ?_⟩
    intro i hi
    have hbf := hr0.before i hi
    obtain ⟨m, hm, rfl⟩ := List.getElem_of_mem hi
    by_cases h1 : 0 < k
    · rw [if_pos h1] at hbf
      rw [hr0.elems m hm] at *
      have : 0 ≤ (m : Int) * k := by positivity
      omega
    · rw [if_neg h1] at hbf
      rw [hr0.elems m hm] at *
      have : (m : Int) * k ≤ 0 := by
        have : (0 : Int) ≤ m := by positivity
        nlinarith
      have han : a.getD 0 < n := by
        cases a with
        | none => have := (hneg (by omega)).1; simp at this
        | some i => exact (ha i rfl).2
      omega

/-! ## Whole keys -/

theorem items_sound {shape : List Nat} {es : List KeyItem} {k : NKey} {ls : List (List Int)}
    (hn : normItems shape es = .ok k) (hl : keyLists k = .ok ls)
    (hb : List.Forall₂ (fun l (n : Nat) => ∀ i ∈ l, 0 ≤ i ∧ i < (n : Int)) ls shape) :
    KeySelects shape es (ls.map (List.map Int.toNat)) ∧
      npIndexShape shape (k.map fun s => .slice (some s.1) (some s.2.1) s.2.2) =
        .ok (ls.map List.length) := by
  induction shape generalizing es k ls with
  | nil =>
    cases hb
    have : k = [] := by
      cases k with
      | nil => rfl
      | cons p ks =>
        obtain ⟨a, b, s⟩ := p
        unfold keyLists at hl
        split at hl
        · cases hl
        · cases hks : keyLists ks with
          | error e => rw [hks] at hl; cases hl
          | ok r => rw [hks] at hl; cases hl
    subst this
    have : es = [] := by
      cases es with
      | nil => rfl
      | cons e es =>
        cases e with
        | int j =>
          unfold normItems at hn
          cases hks : normItems [] es with
          | error e => rw [hks] at hn; cases hn
          | ok r => rw [hks] at hn; cases hn
        | slice a b s => cases hn
    subst this
    exact ⟨.nil, rfl⟩
  | cons n ns ih =>
    obtain ⟨l, ls', h1, h2, rfl⟩ := List.forall₂_cons_right_iff.1 hb
    cases es with
    | nil =>
      cases hn
      cases hl
    | cons e es =>
      unfold normItems at hn
      cases hks : normItems ns es with
      | error e => rw [hks] at hn; cases hn
      | ok k' =>
        rw [hks] at hn
        cases hn
        rcases hne : normItem n e with ⟨a, b, s⟩
        rw [hne] at hl
        unfold keyLists at hl
        split at hl
        · cases hl
        · rename_i l' hl'
          cases hks' : keyLists k' with
          | error e => rw [hks'] at hl; cases hl
          | ok r =>
            rw [hks'] at hl
            cases hl
            obtain ⟨i1, i2⟩ := ih hks hks' h2
            obtain ⟨s1, s2, s3⟩ := item_sound (n := n) (e := e) (l := l) (by rw [hne]; exact hl') h1
            rw [hne] at s2 s3
            refine ⟨.cons s1 i1, ?_⟩
            simp only [List.map_cons, npIndexShape]
            rw [if_neg s2, i2, s3]
            rfl

theorem items_complete {shape : List Nat} {es : List KeyItem}
    (h : List.Forall₂ ItemInRange shape es) :
    ∃ k ls, normItems shape es = .ok k ∧ keyLists k = .ok ls ∧
      List.Forall₂ (fun l (n : Nat) => ∀ i ∈ l, 0 ≤ i ∧ i < (n : Int)) ls shape ∧
      ∃ s, npIndexShape shape es = .ok s := by
  induction h with
  | nil => exact ⟨[], [], rfl, rfl, .nil, [], rfl⟩
  | cons h1 _ ih =>
    rename_i n e ns es _
    obtain ⟨k, ls, i1, i2, i3, s, i4⟩ := ih
    obtain ⟨l, hl, hb⟩ := item_complete h1
    refine ⟨normItem n e :: k, l :: ls, by rw [normItems, i1]; rfl, ?_, .cons hb i3, ?_⟩
    · rcases hne : normItem n e with ⟨a, b, s⟩
      rw [hne] at hl
      rw [keyLists, hl]
      simp only
      rw [i2]; rfl
    · cases e with
      | int j =>
        refine ⟨s, ?_⟩
        rw [npIndexShape, if_pos ⟨by have := h1.1; omega, h1.2⟩, i4]
      | slice a b st =>
        refine ⟨(npSlice n a b st).length :: s, ?_⟩
        rw [npIndexShape, if_neg, i4]
        · rfl
        · rintro rfl
          exact h1.2.2.1 rfl

theorem entry_sound {shape : List Nat} {key : Key} {k : NKey} {sh src : List Nat}
    (hk : normKey shape key = .ok k) (he : entryFor shape shape k = .ok (sh, src)) :
    (∃ sels, KeySelects shape key.items sels ∧ sh = sels.map List.length ∧ IsBlock shape sels src) ∧
      ∀ i ∈ src, i < prodShape shape := by
  unfold entryFor at he
  cases hl : keyLists k with
  | error e => rw [hl] at he; cases he
  | ok ls =>
    rw [hl] at he
    simp only at he
    cases hg : ravelGrid shape ls with
    | error e => rw [hg] at he; cases he
    | ok src' =>
      rw [hg] at he
      simp only at he
      obtain ⟨hb, rfl⟩ := ravelGrid_ok hg
      have hn : normItems shape key.items = .ok k := by
        cases key with
        | tuple es => exact hk
        | one e =>
          cases hk
          obtain ⟨n, rfl⟩ : ∃ n, shape = [n] := by
            have := hb.length_eq
            have hlen : ls.length = 1 := by
              unfold keyLists at hl
              split at hl
              · cases hl
              · simp only [keyLists, Except.map] at hl
                cases hl
                rfl
            rw [hlen] at this
            exact List.length_eq_one_iff.1 this.symm
          simp [Key.items, normItems, prodShape, Except.map]
      obtain ⟨s1, s2⟩ := items_sound hn hl hb
      split at he
      · cases he
      · rename_i hlt
        rw [s2] at he
        cases he
        refine ⟨⟨_, s1, by simp, isBlock_grid _ _⟩, fun i hi => ?_⟩
        by_contra hge
        exact hlt ⟨i, hi, by omega⟩

theorem entry_complete {shape : List Nat} {key : Key}
    (h : List.Forall₂ ItemInRange shape key.items) :
    ∃ k sh src, normKey shape key = .ok k ∧ entryFor shape shape k = .ok (sh, src) ∧
      ∃ s, npIndexShape shape key.items = .ok s := by
  obtain ⟨k, ls, h1, h2, h3, s, h4⟩ := items_complete h
  have hk : normKey shape key = .ok k := by
    cases key with
    | tuple es => exact h1
    | one e =>
      obtain ⟨n, rfl⟩ : ∃ n, shape = [n] := List.length_eq_one_iff.1 h.length_eq
      rw [← h1]
      simp [Key.items, normKey, normItems, prodShape, Except.map]
  have hs := (items_sound h1 h2 h3).2
  refine ⟨k, ls.map List.length, (cartesian (ls.map (List.map Int.toNat))).map (ravel shape), hk, ?_,
    s, h4⟩
  unfold entryFor
  rw [h2]
  simp only
  rw [ravelGrid_of h3]
  simp only
  rw [if_neg, hs]
  rintro ⟨i, hi, hbad⟩
  obtain ⟨idx, hidx, rfl⟩ := List.mem_map.1 hi
  have := ravel_lt (grid_inBounds (shape := shape) (sels := ls.map (List.map Int.toNat)) ?_ hidx)
  · omega
  · rw [List.forall₂_map_left_iff]
    refine h3.imp fun l n hln i hi => ?_
    obtain ⟨x, hx, rfl⟩ := List.mem_map.1 hi
    have := hln x hx
    omega

/-! ## C19 -/

/-- **C19**, never wrong: for a variable whose stored value has its shape, whatever was read before and
whatever the key of integers and slices is (for other keys see C80), an expression returned by `x[key]` consists of exactly the selected elements, in
row-major order of the selected block. -/
theorem c19_never_wrong {shape : List Nat} (history : List Key) (key : Key) {ex : IndexedExpr}
    (h : (getItem (getItems (IVar.new shape shape) history) key).2 = .ok ex) :
    ∃ sels, KeySelects shape key.items sels ∧ ex.shape = sels.map List.length ∧
      IsBlock shape sels ex.src := by
  obtain ⟨i1, i2, i3, _⟩ := getItems_ok (ivar_new_ok shape shape) history
  obtain ⟨k, d, hk, -, -, he⟩ := (getItem_facts i1 key).result ex h
  rw [i2] at hk he
  rw [i3] at he
  exact (entry_sound hk he).1

/-- **C19**, values: the element of the result at the multi-index `j` is the element of `x` at the multi-index
selected by the key. -/
theorem c19_values {shape : List Nat} (history : List Key) (key : Key) {ex : IndexedExpr}
    (h : (getItem (getItems (IVar.new shape shape) history) key).2 = .ok ex) {α : Type} (x : Nat → α) :
    ∃ sels, KeySelects shape key.items sels ∧ ex.shape = sels.map List.length ∧
      (decomposeCompute ex.src x).length = prodShape ex.shape ∧
      ∀ j, InBounds ex.shape j → (decomposeCompute ex.src x)[ravel ex.shape j]? =
        some (x (ravel shape (List.zipWith (fun l i => l.getD i 0) sels j))) := by
  obtain ⟨sels, h1, h2, h3⟩ := c19_never_wrong history key h
  refine ⟨sels, h1, h2, by simp [decomposeCompute, h2, h3.size], fun j hj => ?_⟩
  rw [h2] at hj ⊢
  unfold decomposeCompute
  rw [List.getElem?_map, h3.entry j hj]
  rfl

/-- **C19**, derivatives: the sparse partials declared by `DecomposeComp` (rows `0, 1, …`, columns the
source indices, values 1) are the exact Jacobian of what it computes. -/
theorem c19_partials {shape : List Nat} (history : List Key) (key : Key) {ex : IndexedExpr}
    (h : (getItem (getItems (IVar.new shape shape) history) key).2 = .ok ex)
    (x : Fin (prodShape shape) → ℝ) :
    IsJacobian (fun (x : Fin (prodShape shape) → ℝ) (i : Fin ex.src.length) =>
        (decomposeCompute ex.src (flat x)).getD i 0) x
      (fun i j => entry (decomposePartials ex.src) i j) := by
  obtain ⟨i1, i2, i3, _⟩ := getItems_ok (ivar_new_ok shape shape) history
  obtain ⟨k, d, hk, -, -, he⟩ := (getItem_facts i1 key).result ex h
  rw [i2] at hk he
  rw [i3] at he
  have hlt : ∀ i ∈ ex.src, i < prodShape shape := (entry_sound hk he).2
  refine isJacobian_affine (fun _ => 0) (fun y i => ?_) x
  unfold entry decomposePartials
  rw [coo_sum hlt, cooApply_range _ rfl (by simp) i.2]
  simp [decomposeCompute, List.getD_eq_getElem?_getD]

/-- **C19**, completeness: keys within the shape are accepted, if the first key ever used on the
variable did not fail (see C22). -/
theorem c19_accepts {shape : List Nat} (history : List Key) (key : Key)
    (hfirst : ∀ k ∈ history.head?, ∃ s, npIndexShape shape k.items = .ok s)
    (h : List.Forall₂ ItemInRange shape key.items) :
    ∃ ex, (getItem (getItems (IVar.new shape shape) history) key).2 = .ok ex := by
  obtain ⟨i1, i2, i3, i4, i5⟩ := getItems_ok (ivar_new_ok shape shape) history
  obtain ⟨k, sh, src, hk, he, s, hs⟩ := entry_complete h
  have hready : (∃ dict, (getItems (IVar.new shape shape) history).decomp = some dict) ∨
      ((getItems (IVar.new shape shape) history).called = false ∧
        ∃ s, npIndexShape (getItems (IVar.new shape shape) history).valShape key.items = .ok s) := by
    cases history with
    | nil => exact Or.inr ⟨rfl, s, hs⟩
    | cons k0 ks =>
      left
      obtain ⟨s0, hs0⟩ := hfirst k0 rfl
      have f := getItem_facts (ivar_new_ok shape shape) k0
      obtain ⟨d, hd⟩ : ∃ d, (getItem (IVar.new shape shape) k0).1.decomp = some d := by
        have hfu : firstUse (IVar.new shape shape) k0 =
            (⟨shape, shape, true, some [], 1⟩, none) := by
          unfold firstUse
          rw [if_neg (by simp [IVar.new])]
          show (match npIndexShape shape k0.items with
            | .error e => _
            | .ok _ => _) = _
          rw [hs0]
          rfl
        unfold getItem
        rw [hfu]
        simp only
        cases normKey shape k0 with
        | error e => exact ⟨[], rfl⟩
        | ok k =>
          simp only
          rw [getDecomposed_eq]
          simp only [List.find?_nil]
          cases entryFor shape shape k with
          | error e => exact ⟨[], rfl⟩
          | ok r => exact ⟨_, rfl⟩
      obtain ⟨m, hm⟩ := (getItems_ok f.ok ks).2.2.2.1 d hd
      exact ⟨_, hm⟩
  obtain ⟨ex, hex, _⟩ := getItem_accepts i1 hready (by rw [i2]; exact hk) (by rw [i2, i3]; exact he)
  exact ⟨ex, hex⟩

/-- **C19** is violated by the code for computed expressions: `a + b` for `a`, `b` of shape `(n,)` has
shape `(n,)` but keeps the value `np.array([1])` of the base class, so that `(a + b)[0:n]` has `n` source
elements but shape `(1,)`. -/
theorem c19_computed_expression (n : Nat) (hn : 2 ≤ n) :
    ∃ ex, (getItem (IVar.new [n] [1]) (.one (.slice (some 0) (some n) none))).2 = .ok ex ∧
      ex.src.length = n ∧ ex.shape = [1] := by
  obtain ⟨l, hl, hb⟩ := item_complete (n := n) (e := .slice (some 0) (some n) none)
    ⟨by simp; omega, by simp, by simp, by simp, fun h => by
      have := h.complete
      simp [sliceStart, sliceStop] at this
      omega⟩
  simp only [normItem, Option.getD_some] at hl
  obtain ⟨_, hc⟩ := sliceToList_nosize hl
  obtain ⟨_, hl2, _⟩ := checkedRange_ok hc
  have hlen : l.length = n := by
    rw [hl2, pyRange_length]; simp [rangeLen]
  have hv : (IVar.new [n] [1]).Ok := ivar_new_ok _ _
  have h1 : npSlice 1 (some 0) (some (n : Int)) none = [0] := by
    refine npSlice_of_selects (s := none) (by simp) ?_
    refine ⟨fun i hi => ?_, ?_, ?_⟩
    · have : i = 0 := by simpa using hi
      subst this
      simp [sliceStart]
    · simp [sliceStop]; omega
    · simp [sliceStop, sliceStart]
  have hidx : npIndexShape [1] [.slice (some 0) (some (n : Int)) none] = .ok [1] := by
    simp [npIndexShape, h1, Except.map]
  have hbb : List.Forall₂ (fun l (n : Nat) => ∀ i ∈ l, 0 ≤ i ∧ i < (n : Int)) [l] [n] := .cons hb .nil
  have hent : entryFor [n] [1] [(0, (n : Int), none)] =
      .ok ([1], (cartesian [l.map Int.toNat]).map (ravel [n])) := by
    unfold entryFor
    have hkl : keyLists [(0, (n : Int), none)] = .ok [l] := by
      rw [keyLists, hl]; rfl
    rw [hkl]
    simp only
    rw [ravelGrid_of hbb]
    simp only [List.map_cons, List.map_nil]
    rw [if_neg, hidx]
    rintro ⟨i, hi, hbad⟩
    obtain ⟨idx, hidx, rfl⟩ := List.mem_map.1 hi
    have := ravel_lt (grid_inBounds (shape := [n]) (sels := [l.map Int.toNat]) (.cons ?_ .nil) hidx)
    · omega
    · intro i hi
      obtain ⟨x, hx, rfl⟩ := List.mem_map.1 hi
      have := hb x hx
      omega
  obtain ⟨ex, h2, h3, h4⟩ := getItem_accepts hv (key := .one (.slice (some 0) (some n) none))
    (Or.inr ⟨rfl, _, hidx⟩) rfl hent
  refine ⟨ex, h2, ?_, h3⟩
  rw [h4, List.length_map, cartesian_length]
  simp [prodShape, hlen]

/-- In the same situation every integer key other than 0 raises `IndexError` although it is in range. -/
theorem c19_computed_expression_int (n : Nat) (k : Int) (hk : 1 ≤ k) (_hn : k < n) :
    (getItem (IVar.new [n] [1]) (.one (.int k))).2 = .error .indexError := by
  have : npIndexShape [1] [.int k] = .error .indexError := by
    rw [npIndexShape, if_neg]
    simp only [Nat.cast_one]
    omega
  have hfu : firstUse (IVar.new [n] [1]) (.one (.int k)) =
      (⟨[n], [1], true, none, 0⟩, some .indexError) := by
    unfold firstUse
    rw [if_neg (by simp [IVar.new])]
    show (match npIndexShape [1] [.int k] with
      | .error e => _
      | .ok _ => _) = _
    rw [this]
    rfl
  unfold getItem
  rw [hfu]

/-! ## C20 -/

/-- **C20**, first part: using a key again, after any other reads (some of which may raise), returns the
same expression. -/
theorem c20_same_key {shape valShape : List Nat} (history later : List Key) (key : Key)
    {ex : IndexedExpr}
    (h : (getItem (getItems (IVar.new shape valShape) history) key).2 = .ok ex) :
    (getItem (getItems (getItem (getItems (IVar.new shape valShape) history) key).1 later) key).2 =
      .ok ex := by
  obtain ⟨i1, i2, i3, _⟩ := getItems_ok (ivar_new_ok shape valShape) history
  have f := getItem_facts i1 key
  obtain ⟨k, d, hk, hd, hm, he⟩ := f.result ex h
  obtain ⟨j1, j2, j3, j4, _⟩ := getItems_ok f.ok later
  obtain ⟨more, hmore⟩ := j4 d hd
  generalize getItems (getItem (getItems (IVar.new shape valShape) history) key).1 later = v at *
  have hc : v.called = true := by
    by_contra hc
    rw [j1.called (by simpa using hc)] at hmore
    cases hmore
  have hfu : firstUse v key = (v, none) := by unfold firstUse; rw [if_pos hc]
  unfold getItem
  rw [hfu]
  simp only
  rw [j2, f.shape, hk]
  simp only [hmore]
  rw [getDecomposed_eq]
  have hmem : (k, ex) ∈ d ++ more := List.mem_append_left _ hm
  cases hfind : (d ++ more).find? (fun p => p.1 == k) with
  | none =>
    have := List.find?_eq_none.1 hfind _ hmem
    simp at this
  | some p =>
    simp only
    have hp := List.mem_of_find?_eq_some hfind
    have hpk : p.1 = k := by simpa using List.find?_some hfind
    have hkeys := j1.keys _ hmore
    have : p = (k, ex) :=
      List.inj_on_of_nodup_map hkeys hp hmem hpk
    rw [this]

/-- The bounds and the step that an item of a key stands for on an axis of length `n`: an int `k` stands for `k:k+1`,
a missing start for 0, a missing stop for `n`. -/
def ItemStandsFor (n : Nat) : KeyItem → Int × Int × Option Int → Prop
  | .int k, t => t = (k, k + 1, none)
  | .slice a b s, t => (a = some t.1 ∨ a = none ∧ t.1 = 0) ∧ (b = some t.2.1 ∨ b = none ∧ t.2.1 = n) ∧ s = t.2.2

/-- The same for all items of a key with one item per axis. -/
inductive StandsFor : List Nat → List KeyItem → List (Int × Int × Option Int) → Prop
  | nil : StandsFor [] [] []
  | cons {n ns e es t ts} : ItemStandsFor n e t → StandsFor ns es ts → StandsFor (n :: ns) (e :: es) (t :: ts)

theorem itemStandsFor_iff (n : Nat) (e : KeyItem) (t : Int × Int × Option Int) :
    ItemStandsFor n e t ↔ t = normItem n e := by
  obtain ⟨t1, t2, t3⟩ := t
  cases e with
  | int k => rfl
  | slice a b s =>
    simp only [ItemStandsFor, normItem, Prod.mk.injEq]
    constructor
    · rintro ⟨h1, h2, h3⟩
      refine ⟨?_, ?_, h3.symm⟩
      · rcases h1 with rfl | ⟨rfl, rfl⟩ <;> rfl
      · rcases h2 with rfl | ⟨rfl, rfl⟩ <;> rfl
    · rintro ⟨rfl, rfl, rfl⟩
      refine ⟨?_, ?_, rfl⟩
      · cases a <;> simp
      · cases b <;> simp

theorem standsFor_iff {shape : List Nat} {es : List KeyItem} (hl : es.length = shape.length)
    (k : List (Int × Int × Option Int)) : StandsFor shape es k ↔ normItems shape es = .ok k := by
  induction es generalizing shape k with
  | nil =>
    obtain rfl := List.length_eq_zero_iff.1 hl.symm
    constructor
    · intro h; cases h; rfl
    · intro h; cases h; exact .nil
  | cons e es ih =>
    cases shape with
    | nil => simp at hl
    | cons n ns =>
      have hl' : es.length = ns.length := by simpa using hl
      simp only [normItems]
      constructor
      · intro h
        cases h with
        | cons h1 h2 => rw [(ih hl' _).1 h2, (itemStandsFor_iff _ _ _).1 h1]; rfl
      · intro h
        cases hr : normItems ns es with
        | error e => rw [hr] at h; cases h
        | ok r =>
          rw [hr] at h
          cases h
          exact .cons ((itemStandsFor_iff _ _ _).2 rfl) ((ih hl' _).2 hr)

theorem keyLists_length {k : NKey} {ls : List (List Int)} (h : keyLists k = .ok ls) : ls.length = k.length := by
  induction k generalizing ls with
  | nil => cases h; rfl
  | cons t k ih =>
    obtain ⟨a, b, s⟩ := t
    unfold keyLists at h
    split at h
    · cases h
    · cases hr : keyLists k with
      | error e => rw [hr] at h; cases h
      | ok r =>
        rw [hr] at h
        cases h
        simp [ih hr]

theorem normItems_length {shape : List Nat} {es : List KeyItem} {k : NKey} (h : normItems shape es = .ok k) :
    k.length = es.length := by
  induction es generalizing shape k with
  | nil =>
    cases shape <;> cases h <;> rfl
  | cons e es ih =>
    cases shape with
    | nil =>
      cases e with
      | slice a b s => cases h
      | int i =>
        simp only [normItems] at h
        cases hr : normItems [] es with
        | error e => rw [hr] at h; cases h
        | ok r => rw [hr] at h; cases h; simp [ih hr]
    | cons n ns =>
      simp only [normItems] at h
      cases hr : normItems ns es with
      | error e => rw [hr] at h; cases h
      | ok r => rw [hr] at h; cases h; simp [ih hr]

theorem entry_standsFor {shape valShape : List Nat} {key : Key} {k : NKey} {r : List Nat × List Nat}
    (hk : normKey shape key = .ok k) (he : entryFor shape valShape k = .ok r) :
    ∀ ts, StandsFor shape key.items ts ↔ ts = k := by
  unfold entryFor at he
  cases hl : keyLists k with
  | error e => rw [hl] at he; cases he
  | ok ls =>
    rw [hl] at he
    simp only at he
    cases hg : ravelGrid shape ls with
    | error e => rw [hg] at he; cases he
    | ok src =>
      have hlen : k.length = shape.length := by
        rw [← keyLists_length hl]; exact (ravelGrid_ok hg).1.length_eq
      have hn : normItems shape key.items = .ok k := by
        cases key with
        | tuple es => exact hk
        | one e =>
          cases hk
          obtain ⟨n, rfl⟩ := List.length_eq_one_iff.1 hlen.symm
          simp [Key.items, normItems, prodShape, Except.map]
      intro ts
      rw [standsFor_iff (by rw [← normItems_length hn, hlen]), hn]
      simp [eq_comm]

/-- **C20**, second part: two reads return the same expression if and only if their keys stand for the same bounds and
steps. -/
theorem c20_same_expr {shape valShape : List Nat} (history later : List Key) (key key' : Key)
    {ex ex' : IndexedExpr}
    (h : (getItem (getItems (IVar.new shape valShape) history) key).2 = .ok ex)
    (h' : (getItem (getItems (getItem (getItems (IVar.new shape valShape) history) key).1 later)
      key').2 = .ok ex') :
    (ex.id = ex'.id ↔ ex = ex') ∧
    (ex = ex' ↔ ∃ ts, StandsFor shape key.items ts ∧ StandsFor shape key'.items ts) := by
  obtain ⟨i1, i2, i3, _⟩ := getItems_ok (ivar_new_ok shape valShape) history
  have f := getItem_facts i1 key
  obtain ⟨k, d, hk, hd, hm, he⟩ := f.result ex h
  obtain ⟨j1, j2, j3, j4, _⟩ := getItems_ok f.ok later
  obtain ⟨more, hmore⟩ := j4 d hd
  have f' := getItem_facts j1 key'
  obtain ⟨k', d', hk', hd', hm', he'⟩ := f'.result ex' h'
  obtain ⟨more', hmore'⟩ := f'.grows _ hmore
  rw [hd'] at hmore'
  cases hmore'
  have hmem : (k, ex) ∈ d ++ more ++ more' := by simp [hm]
  rw [i2] at hk he
  rw [j2, f.shape, i2] at hk' he'
  have s1 := entry_standsFor hk he
  have s2 := entry_standsFor hk' he'
  change ∀ ts, StandsFor shape key.items ts ↔ _ at s1
  change ∀ ts, StandsFor shape key'.items ts ↔ _ at s2
  have byId : ex.id = ex'.id → (k, ex) = (k', ex') :=
    fun hid => List.inj_on_of_nodup_map (f'.ok.ids _ hd') hmem hm' hid
  refine ⟨⟨fun hid => (Prod.mk.inj (byId hid)).2, fun he => by rw [he]⟩, fun hex => ?_, ?_⟩
  · have := (Prod.mk.inj (byId (by rw [hex]))).1
    exact ⟨k, (s1 k).2 rfl, (s2 k).2 this⟩
  · rintro ⟨ts, t1, t2⟩
    have hkk : k = k' := ((s1 ts).1 t1).symm.trans ((s2 ts).1 t2)
    exact (Prod.mk.inj (List.inj_on_of_nodup_map (f'.ok.keys _ hd') hmem hm' hkk)).2

/-- `x[:]` and `x[0:3]` stand for the same, `x[0:3:1]` does not. -/
example : StandsFor [3] [.slice none none none] [(0, 3, none)] ∧
    StandsFor [3] [.slice (some 0) (some 3) none] [(0, 3, none)] ∧
    ¬ StandsFor [3] [.slice (some 0) (some 3) (some 1)] [(0, 3, none)] := by
  refine ⟨.cons (by simp [ItemStandsFor]) .nil, .cons (by simp [ItemStandsFor]) .nil, ?_⟩
  intro h
  cases h with
  | cons h _ => simp [ItemStandsFor] at h

/-! ## C22 -/

/-- **C22** is violated by the code: if the first key used on a variable fails in `self.val[key]`, then
every later key fails, valid or not. -/
theorem c22_first_failure_is_permanent {shape valShape : List Nat} (key : Key) {e : PyErr}
    (h : npIndexShape valShape key.items = .error e) (later : List Key) (key' : Key) :
    (getItem (IVar.new shape valShape) key).2 = .error e ∧
      ∃ e', (getItem (getItems (getItem (IVar.new shape valShape) key).1 later) key').2 =
        .error e' := by
  have hfu : firstUse (IVar.new shape valShape) key =
      (⟨shape, valShape, true, none, 0⟩, some e) := by
    unfold firstUse
    rw [if_neg (by simp [IVar.new])]
    show (match npIndexShape valShape key.items with
      | .error e => _
      | .ok _ => _) = _
    rw [h]
    rfl
  have hg : getItem (IVar.new shape valShape) key =
      (⟨shape, valShape, true, none, 0⟩, .error e) := by
    unfold getItem
    rw [hfu]
  have hok := (getItem_facts (ivar_new_ok shape valShape) key).ok
  rw [hg] at hok ⊢
  refine ⟨rfl, ?_⟩
  have := (getItems_ok hok later).2.2.2.2 rfl rfl
  rw [this]
  exact ((getItem_facts hok key').lost rfl rfl).2

/-- After a first key that NumPy accepts for the stored value, `_decomp` exists for good. -/
theorem decomp_exists {shape valShape : List Nat} {k0 : Key} {s0 : List Nat} (ks : List Key)
    (hs0 : npIndexShape valShape k0.items = .ok s0) :
    ∃ dict, (getItems (IVar.new shape valShape) (k0 :: ks)).decomp = some dict := by
  have f := getItem_facts (ivar_new_ok shape valShape) k0
  obtain ⟨d, hd⟩ : ∃ d, (getItem (IVar.new shape valShape) k0).1.decomp = some d := by
    have hfu : firstUse (IVar.new shape valShape) k0 =
        (⟨shape, valShape, true, some [], 1⟩, none) := by
      unfold firstUse
      rw [if_neg (by simp [IVar.new])]
      show (match npIndexShape valShape k0.items with
        | .error e => _
        | .ok _ => _) = _
      rw [hs0]
      rfl
    unfold getItem
    rw [hfu]
    simp only
    cases normKey shape k0 with
    | error e => exact ⟨[], rfl⟩
    | ok k =>
      simp only
      rw [getDecomposed_eq]
      simp only [List.find?_nil]
      cases entryFor shape valShape k with
      | error e => exact ⟨[], rfl⟩
      | ok r => exact ⟨_, rfl⟩
  obtain ⟨m, hm⟩ := (getItems_ok f.ok ks).2.2.2.1 d hd
  exact ⟨_, hm⟩

/-- **C22** (partial), what holds: if the very first key used on the variable is one that NumPy accepts for its stored
value, a failed read leaves the variable exactly as it was, and keys within the shape are accepted afterwards (if the
stored value has the shape of the variable, see C19). Missing: a first key that NumPy refuses, for which the claim is
false, see `c22_first_failure_is_permanent`. -/
theorem c22_failure_is_harmless_partial {shape valShape : List Nat} (first : Key) (history : List Key) (key : Key)
    {s : List Nat} (hfirst : npIndexShape valShape first.items = .ok s) {e : PyErr}
    (h : (getItem (getItems (IVar.new shape valShape) (first :: history)) key).2 = .error e) :
    (getItem (getItems (IVar.new shape valShape) (first :: history)) key).1 =
      getItems (IVar.new shape valShape) (first :: history) ∧
    (shape = valShape → ∀ later key', List.Forall₂ ItemInRange shape key'.items →
      ∃ ex, (getItem (getItems (IVar.new shape valShape) (first :: history ++ key :: later)) key').2 = .ok ex) := by
  refine ⟨(getItem_facts (getItems_ok (ivar_new_ok shape valShape) (first :: history)).1 key).failure e h
    (decomp_exists history hfirst), ?_⟩
  rintro rfl later key' hr
  exact c19_accepts _ key' (fun k hk => by cases hk; exact ⟨s, hfirst⟩) hr

/-- A first key that is accepted, then one that fails. -/
example : npIndexShape [4, 3] (Key.tuple [.slice (some 1) (some 3) none, .int 0]).items = .ok [2] ∧
    (getItem (getItems (IVar.new [4, 3] [4, 3]) [.tuple [.slice (some 1) (some 3) none, .int 0]])
      (.tuple [.int 9, .int 0])).2 = .error .valueError := by decide

/-! ## Concrete cases -/

/-- `x[1:3, 0]` for `x` of shape `(4, 3)`: elements 3 and 6, shape `(2, 1)`. -/
example : (getItem (IVar.new [4, 3] [4, 3]) (.tuple [.slice (some 1) (some 3) none, .int 0])).2 =
    .ok ⟨1, [2, 1], [3, 6]⟩ := by decide

/-- The same key again, in between a key that raises. -/
example : (getItem (getItems (IVar.new [4, 3] [4, 3])
    [.tuple [.slice (some 1) (some 3) none, .int 0], .tuple [.int 9, .int 0]])
    (.tuple [.slice (some 1) (some 3) none, .int 0])).2 = .ok ⟨1, [2, 1], [3, 6]⟩ := by decide

/-- `x[9, 0]` first: `IndexError`, and then `AttributeError` for good. -/
example : (getItem (getItems (IVar.new [4, 3] [4, 3]) [.tuple [.int 9, .int 0]])
    (.tuple [.slice (some 1) (some 3) none, .int 0])).2 = .error .attributeError := by decide

example : List.Forall₂ ItemInRange [4, 3] [.slice (some 1) (some 3) none, .int 0] :=
  .cons ⟨by simp, by simp, by simp, by simp, fun h => by
      have := h.complete
      simp [sliceStart, sliceStop] at this⟩ (.cons ⟨by simp, by simp⟩ .nil)

end OM
