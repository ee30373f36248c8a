import Verif.Model.Keys
import Verif.Props.Getitem
import Verif.Lemmas.Setitem

/-! # Keys with items that are neither integers nor slices (C80) -/

namespace OM
open Spec

/-- A key of integers and slices. -/
def Key.toAny : Key → AnyKey
  | .one e => .one (.item e)
  | .tuple es => .tuple (es.map .item)

@[simp] theorem item?_item (e : KeyItem) : (AnyItem.item e).item? = some e := rfl
@[simp] theorem item?_ellipsis : AnyItem.ellipsis.item? = none := rfl
@[simp] theorem item?_newaxis : AnyItem.newaxis.item? = none := rfl
@[simp] theorem item?_junk : AnyItem.junk.item? = none := rfl

theorem items_toAny (key : Key) : key.toAny.items = key.items.map .item := by cases key <;> rfl

theorem npShapeNew_some (ns : List Nat) (es : List KeyItem) : npShapeNew ns (es.map some) = npIndexShape ns es := by
  induction es generalizing ns with
  | nil => cases ns <;> simp [npShapeNew, npIndexShape]
  | cons e es ih =>
    cases ns with
    | nil => simp [npShapeNew, npIndexShape]
    | cons n ns => cases e <;> simp [npShapeNew, npIndexShape, ih]

theorem filterMap_item (es : List KeyItem) : (es.map AnyItem.item).filterMap AnyItem.item? = es := by
  induction es with
  | nil => rfl
  | cons e es ih => simp [AnyItem.item?, ih]

theorem npAnyShape_item {ns : List Nat} {es : List KeyItem} (h : es.length ≤ ns.length) :
    npAnyShape ns (es.map .item) = npIndexShape ns es := by
  unfold npAnyShape
  rw [filterMap_item, if_neg, ← npShapeNew_some, List.flatMap_map]
  · congr 1
    induction es with
    | nil => rfl
    | cons e es ih => simpa using ih (by simp at h; omega)
  · have : (es.map AnyItem.item).count .ellipsis = 0 := by
      rw [List.count_eq_zero]; simp
    simp [this]; omega

theorem normAnyItems_item (ns : List Nat) (es : List KeyItem) :
    normAnyItems ns (es.map .item) = normItems ns es := by
  induction es generalizing ns with
  | nil => cases ns <;> rfl
  | cons e es ih => cases ns <;> cases e <;> simp [normAnyItems, normItems, ih]

theorem normAnyKey_toAny (shape : List Nat) (key : Key) : normAnyKey shape key.toAny = normKey shape key := by
  cases key with
  | one e => rfl
  | tuple es => exact normAnyItems_item shape es

theorem tgtAnyLists_item (ns : List Nat) (es : List KeyItem) :
    tgtAnyLists ns (es.map .item) = tgtLists ns es := by
  induction es generalizing ns with
  | nil => cases ns <;> rfl
  | cons e es ih =>
    cases ns with
    | nil => rfl
    | cons n ns =>
      rw [List.map_cons, tgtAnyLists.eq_def, tgtLists.eq_def]
      simp only [ih]
      cases e with
      | int k => simp only; cases sliceToList (some k) (some (k + 1)) none (some n) <;> rfl
      | slice a b s => simp only; cases sliceToList a b s (some n) <;> rfl

/-- **C80**, documented keys are read and assigned as in C19 and C17 (for reads: if there are not more items than
axes, or the variable was read before). -/
theorem c80_documented (v : IVar) (key : Key) (h : v.called = true ∨ key.items.length ≤ v.valShape.length)
    (o : OVar) (name : String) (shape : List Nat) :
    getAny v key.toAny = getItem v key ∧ setAny o key.toAny name shape = setItemIdx o key name shape := by
  constructor
  · unfold getAny getItem
    have : firstUseAny v key.toAny = firstUse v key := by
      unfold firstUseAny firstUse
      rcases h with h | h
      · rw [if_pos h, if_pos h]
      · rw [items_toAny, npAnyShape_item h]
        cases npIndexShape v.valShape key.items <;> rfl
    rw [this]
    rcases firstUse v key with ⟨w, _ | e⟩
    · simp only [normAnyKey_toAny]
      cases normKey w.shape key with
      | error e => rfl
      | ok k => simp only; cases w.decomp <;> rfl
    · rfl
  · have : tgtAny o.shape key.toAny = tgtIndices o.shape key := by
      cases key with
      | one e => rfl
      | tuple es =>
        simp only [Key.toAny, tgtAny, tgtIndices, tgtAnyLists_item]
        cases tgtLists o.shape es <;> rfl
    unfold setAny setItemIdx
    rw [this]
    cases tgtIndices o.shape key <;> rfl

/-- **C80**, a single object that is neither an integer nor a slice is refused: `TypeError` (`IndexError` if it is the
first key and NumPy refuses it). -/
theorem c80_single (v : IVar) {o : AnyItem} (ho : ∀ e, o ≠ .item e) :
    (v.called = true ∨ o ≠ .junk → (getAny v (.one o)).2 = .error .typeError) ∧
    (v.called = false → o = .junk → (getAny v (.one o)).2 = .error .indexError) := by
  have hn : normAnyKey v.shape (.one o) = .error .typeError := by
    cases o with
    | item e => exact absurd rfl (ho e)
    | ellipsis => rfl
    | newaxis => rfl
    | junk => rfl
  constructor
  · intro h
    cases hc : v.called with
    | true =>
      have hf : firstUseAny v (.one o) = (v, none) := by unfold firstUseAny; rw [if_pos hc]
      unfold getAny
      rw [hf]
      simp only [hn]
    | false =>
      have hj : o ≠ .junk := by simpa [hc] using h
      obtain ⟨s, hs⟩ : ∃ s, npAnyShape v.valShape (AnyKey.one o).items = .ok s := by
        cases o with
        | item e => exact absurd rfl (ho e)
        | junk => exact absurd rfl hj
        | newaxis => exact ⟨1 :: v.valShape, by cases v.valShape <;> rfl⟩
        | ellipsis =>
          have : ∀ ns : List Nat, ∃ s, npShapeNew ns (List.replicate ns.length (some (.slice none none none))) =
              .ok s := by
            intro ns
            induction ns with
            | nil => exact ⟨_, rfl⟩
            | cons n ns ih =>
              obtain ⟨s, hs⟩ := ih
              refine ⟨(npSlice n none none none).length :: s, ?_⟩
              rw [List.length_cons, List.replicate_succ, npShapeNew, if_neg (by simp), hs]
              rfl
          obtain ⟨s, hs⟩ := this v.valShape
          refine ⟨s, ?_⟩
          simpa [npAnyShape, AnyKey.items, List.filterMap_cons] using hs
      unfold getAny firstUseAny
      simp [hc, hs, hn]
  · rintro hc rfl
    have : npAnyShape v.valShape (AnyKey.one .junk).items = .error .indexError := by
      simp [npAnyShape, AnyKey.items]
    unfold getAny firstUseAny
    simp [hc, this]

theorem tgtAnyLists_other {shape : List Nat} {es : List AnyItem} {o : AnyItem} (ho : ∀ e, o ≠ .item e)
    (h : o ∈ es) : ∃ e, tgtAnyLists shape es = .error e := by
  induction es generalizing shape with
  | nil => cases h
  | cons x es ih =>
    cases x with
    | item e =>
      have h' : o ∈ es := by
        rcases List.mem_cons.1 h with h | h
        · exact absurd h (ho e)
        · exact h
      cases shape with
      | nil => exact ⟨_, rfl⟩
      | cons n ns =>
        obtain ⟨e', he⟩ := ih (shape := ns) h'
        rw [tgtAnyLists.eq_def]
        simp only
        split
        · exact ⟨_, rfl⟩
        · rw [he]; exact ⟨_, rfl⟩
    | ellipsis => cases shape <;> exact ⟨_, rfl⟩
    | newaxis => cases shape <;> exact ⟨_, rfl⟩
    | junk => cases shape <;> exact ⟨_, rfl⟩

/-- **C80**, assignments: a key with an item that is neither an integer nor a slice is refused, and nothing is
assigned. A single such object raises `TypeError`; as first item of a tuple it raises `AttributeError`. -/
theorem c80_assignment (v : OVar) {key : AnyKey} {o : AnyItem} (ho : ∀ e, o ≠ .item e) (h : o ∈ key.items)
    (name : String) (shape : List Nat) :
    (∃ e, setAny v key name shape = (v, some e)) ∧
    setAny v (.one o) name shape = (v, some .typeError) ∧
    ∀ rest, setAny v (.tuple (o :: rest)) name shape = (v, some .attributeError) := by
  have h1 : setAny v (.one o) name shape = (v, some .typeError) := by
    cases o with
    | item e => exact absurd rfl (ho e)
    | ellipsis => rfl
    | newaxis => rfl
    | junk => rfl
  refine ⟨?_, h1, fun rest => ?_⟩
  · cases key with
    | one e =>
      obtain rfl : o = e := List.mem_singleton.1 h
      exact ⟨_, h1⟩
    | tuple es =>
      obtain ⟨e, he⟩ := tgtAnyLists_other (shape := v.shape) (es := es) ho h
      exact ⟨e, by simp only [setAny, tgtAny, he]⟩
  · have : tgtAnyLists v.shape (o :: rest) = .error .attributeError := by
      cases o with
      | item e => exact absurd rfl (ho e)
      | ellipsis => cases v.shape <;> rfl
      | newaxis => cases v.shape <;> rfl
      | junk => cases v.shape <;> rfl
    simp only [setAny, tgtAny, this]

theorem normAnyItems_ints {ns ms : List Nat} {es : List AnyItem} (h : ∀ e, .item e ∈ es → ∃ k, e = .int k) :
    normAnyItems ns es = normItems ms (es.filterMap AnyItem.item?) := by
  induction es generalizing ns ms with
  | nil => cases ns <;> cases ms <;> rfl
  | cons x es ih =>
    have ih' : ∀ ns ms, normAnyItems ns es = normItems ms (es.filterMap AnyItem.item?) :=
      fun ns ms => ih (ns := ns) (ms := ms) fun e he => h e (by simp [he])
    cases x with
    | item e =>
      obtain ⟨k, rfl⟩ := h e (by simp)
      cases ns <;> cases ms <;> simp only [normAnyItems, List.filterMap_cons, item?_item, normItems, normItem]
      · rw [ih' [] []]
      · rename_i m ms; rw [ih' [] ms]
      · rename_i n ns; rw [ih' ns []]
      · rename_i n ns m ms; rw [ih' ns ms]
    | ellipsis => cases ns <;> simpa [normAnyItems, List.filterMap_cons] using ih' _ ms
    | newaxis => cases ns <;> simpa [normAnyItems, List.filterMap_cons] using ih' _ ms
    | junk => cases ns <;> simpa [normAnyItems, List.filterMap_cons] using ih' _ ms

/-- **C80, refuted.** Items of a tuple that are neither integers nor slices are skipped: once a variable was read, a
tuple of integers with any such objects between them is read as if they were not there. -/
theorem c80_skipped {v : IVar} (hv : v.called = true) {es : List AnyItem}
    (h : ∀ e, .item e ∈ es → ∃ k, e = .int k) :
    getAny v (.tuple es) = getItem v (.tuple (es.filterMap AnyItem.item?)) := by
  unfold getAny getItem firstUseAny firstUse
  rw [if_pos hv, if_pos hv]
  simp only [normAnyKey, normKey]
  rw [normAnyItems_ints (ms := v.shape) h]
  cases normItems v.shape (es.filterMap AnyItem.item?) with
  | error e => rfl
  | ok k => simp only; cases v.decomp <;> rfl

theorem selects_prefix {m n : Nat} (h : n ≤ m) :
    ItemSelects m (.slice (some 0) (some (n : Int)) none) (List.range n) := by
  refine ⟨fun i hi => ?_, fun x hx => ?_, ?_⟩
  · simp [sliceStart]
  · simp only [List.mem_map, List.mem_range] at hx
    obtain ⟨a, ha, rfl⟩ := hx
    simp [sliceStop]; omega
  · simp [sliceStart, sliceStop]; omega

/-- **C80, refuted again.** A skipped item still counts as a position: `x[..., :, 0]` and `x[None, :, 0]` take the
number of columns for the number of rows. For a variable with `m` rows and `n < m` columns, the result has the first
`n` entries of the first column, where NumPy selects all `m` of them. -/
theorem c80_wrong_elements {m n : Nat} (hn : 0 < n) (hmn : n < m) {o : AnyItem}
    (ho : o = .ellipsis ∨ o = .newaxis) :
    (∃ s, npAnyShape [m, n] [o, .item (.slice none none none), .item (.int 0)] = .ok s ∧ prodShape s = m) ∧
    ∃ ex, (getAny (IVar.new [m, n] [m, n]) (.tuple [o, .item (.slice none none none), .item (.int 0)])).2 = .ok ex ∧
      ex.shape = [n, 1] ∧ IsBlock [m, n] [List.range n, [0]] ex.src := by
  have hsl : (npSlice m none none none).length = m := by
    simp [npSlice, npStart, npStop, pyRange, rangeLen]
  have hnp : ∃ s, npAnyShape [m, n] [o, .item (.slice none none none), .item (.int 0)] = .ok s ∧
      prodShape s = m := by
    rcases ho with rfl | rfl
    · refine ⟨[m], ?_, by simp [prodShape]⟩
      simp [npAnyShape, List.filterMap_cons, npShapeNew, hsl, hn, Except.map]
    · refine ⟨[1, m], ?_, by simp [prodShape]⟩
      simp [npAnyShape, List.filterMap_cons, npShapeNew, hsl, hn, Except.map]
  refine ⟨hnp, ?_⟩
  obtain ⟨s, hs, _⟩ := hnp
  set k : Key := .tuple [.slice (some 0) (some (n : Int)) none, .int 0] with hk
  have hin : List.Forall₂ ItemInRange [m, n] k.items := by
    refine .cons ⟨?_, ?_, by simp, by simp, ?_⟩ (.cons ⟨le_refl _, by simpa using hn⟩ .nil)
    · intro i hi; obtain rfl := Option.some.inj hi; omega
    · intro i hi; obtain rfl := Option.some.inj hi; omega
    · intro h
      have := h.complete
      simp [sliceStart, sliceStop] at this
      omega
  obtain ⟨ex, hex⟩ := c19_accepts (shape := [m, n]) [] k (by simp) hin
  obtain ⟨sels, h1, h2, h3⟩ := c19_never_wrong [] k hex
  obtain ⟨s', hs'⟩ : ∃ s, npIndexShape [m, n] k.items = .ok s := by
    obtain ⟨k', sh, src, _, _, s, hs⟩ := entry_complete hin
    exact ⟨s, hs⟩
  have hsels : sels = [List.range n, [0]] := by
    rw [hk] at h1
    cases h1 with
    | cons a1 a2 =>
      cases a2 with
      | cons b1 b2 =>
        cases b2
        rw [itemSelects_unique a1 (selects_prefix (by omega)), b1.2.2]
        rfl
  refine ⟨ex, ?_, by rw [h2, hsels]; simp, hsels ▸ h3⟩
  rw [← hex]
  show (getAny _ _).2 = (getItem (IVar.new [m, n] [m, n]) k).2
  have hf1 : firstUseAny (IVar.new [m, n] [m, n]) (.tuple [o, .item (.slice none none none), .item (.int 0)]) =
      (⟨[m, n], [m, n], true, some [], 1⟩, none) := by
    simp [firstUseAny, IVar.new, AnyKey.items, hs]
  have hf2 : firstUse (IVar.new [m, n] [m, n]) k = (⟨[m, n], [m, n], true, some [], 1⟩, none) := by
    simp [firstUse, IVar.new, hs']
  unfold getAny getItem
  rw [hf1, hf2]
  have : normAnyKey [m, n] (.tuple [o, .item (.slice none none none), .item (.int 0)]) = normKey [m, n] k := by
    rcases ho with rfl | rfl <;> rfl
  simp only [this]
  cases normKey [m, n] k <;> rfl

/-- `x["a", 1]` after `x[0]`. -/
example : (getAny (getItem (IVar.new [3] [3]) (.one (.int 0))).1 (.tuple [.junk, .item (.int 1)])).2 =
    (getItem (getItem (IVar.new [3] [3]) (.one (.int 0))).1 (.tuple [.int 1])).2 ∧
    ∃ ex, (getItem (getItem (IVar.new [3] [3]) (.one (.int 0))).1 (.tuple [.int 1])).2 = .ok ex := by
  refine ⟨?_, _, rfl⟩
  rw [c80_skipped rfl (by simp)]
  rfl

/-- `x["a"]`, `x[...]` and `out[0, ...] = a`. -/
example (v : OVar) : (getAny (IVar.new [3] [3]) (.one .junk)).2 = .error .indexError ∧
    (getAny (IVar.new [3] [3]) (.one .ellipsis)).2 = .error .typeError ∧
    ∃ e, setAny v (.tuple [.item (.int 0), .ellipsis]) "a" [1] = (v, some e) :=
  ⟨(c80_single _ (by simp)).2 rfl rfl, (c80_single _ (by simp)).1 (.inr (by simp)),
    (c80_assignment v (o := .ellipsis) (by simp) (by simp [AnyKey.items]) "a" [1]).1⟩

/-- A matrix with three rows and two columns. -/
example : ∃ ex, (getAny (IVar.new [3, 2] [3, 2])
    (.tuple [.ellipsis, .item (.slice none none none), .item (.int 0)])).2 = .ok ex ∧ ex.src = [0, 2] := by
  exact ⟨_, rfl, by decide⟩

end OM
