import Verif.Model.Indexing
import Verif.Spec.Index
import Verif.Lemmas.Shape
import Verif.Props.Slice

namespace OM
open Spec

/-! ## Slices -/

/-- Whatever the bounds are: if the accepted indices are within the axis, they are the selected ones. -/
theorem sliceToList_selects {n : Nat} {start stop : Option Int} {k : Int} {l : List Int}
    (hb0 : 0 ≤ codeStop n stop) (hc : checkedRange (start.getD 0) (codeStop n stop) k = .ok l)
    (hlt : ∀ x ∈ l, x < n) : Selects n start stop k l := by
  obtain ⟨hk, hl, hne, hall, ha, hp, hm⟩ := checkedRange_ok hc
  have hr := pyRange_isRange (start.getD 0) (codeStop n stop) k hk
  rw [← hl] at hr
  have hpos : 0 < l.length := List.length_pos_of_ne_nil hne
  have han : start.getD 0 < n := by
    have := hlt l[0] (List.getElem_mem hpos)
    rw [hr.elems 0 hpos] at this
    simpa using this
  have hsa : sliceStart n start k = start.getD 0 := by
    unfold sliceStart
    cases start with
    | none =>
      simp only [Option.getD_none] at *
      split
      · rfl
      · have := hm (by omega); omega
    | some i =>
      simp only [Option.getD_some] at *
      rw [if_neg (show ¬ i < 0 by omega)]
      split <;> omega
  unfold Selects
  rw [hsa]
  by_cases hk0 : 0 < k
  · have hsb : sliceStop n stop k = min (n : Int) (codeStop n stop) := by
      unfold sliceStop codeStop
      unfold codeStop at hb0
      cases stop with
      | none => simp [hk0]
      | some j => simp only [hk0, if_true]; simp only at hb0; split <;> simp_all <;> omega
    rw [hsb]
    refine ⟨hr.elems, fun x hx => ?_, ?_⟩
    · have h1 := hr.before x hx
      have h2 := hlt x hx
      rw [if_pos hk0] at h1 ⊢
      omega
    · have := hr.complete
      rw [if_pos hk0] at this ⊢
      omega
  · have hba := hm (by omega)
    have hsb : sliceStop n stop k = codeStop n stop := by
      unfold sliceStop codeStop at *
      cases stop with
      | none => simp only at hba; omega
      | some j => simp only [hk0, if_false] at *; split at * <;> omega
    rw [hsb]
    exact hr

theorem npSlice_selects {n : Nat} {a b s : Option Int} (hs : s.getD 1 ≠ 0) :
    Selects n a b (s.getD 1) ((npSlice n a b s).map Int.ofNat) := by
  unfold npSlice
  generalize s.getD 1 = k at *
  have hbnd : ∀ x y : Int, sliceStart n a k = x → sliceStop n b k = y →
      (∀ z ∈ pyRange x y k, 0 ≤ z) := by
    intro x y hx hy z hz
    have hr := pyRange_isRange x y k hs
    have h1 := hr.before z hz
    split at h1
    · rename_i hk
      obtain ⟨i, hi, rfl⟩ := List.getElem_of_mem hz
      rw [hr.elems i hi]
      have : 0 ≤ x := by
        rw [← hx]; unfold sliceStart
        cases a <;> simp only [hk, if_true] <;> omega
      have : 0 ≤ (i : Int) * k := by positivity
      omega
    · rename_i hk
      have : -1 ≤ y := by
        rw [← hy]; unfold sliceStop
        cases b <;> simp only [hk, if_false] <;> omega
      omega
  have e1 : npStart n k a = sliceStart n a k := by
    unfold sliceStart npStart npClamp
    cases a with
    | none => simp only; split <;> split <;> omega
    | some i =>
      simp only
      by_cases h1 : 0 < k
      · have h2 : ¬ k < 0 := by omega
        simp only [h1, h2, if_true, if_false]
        split <;> omega
      · have h2 : k < 0 := by omega
        simp only [h1, h2, if_true, if_false]
        split <;> omega
  have e2 : npStop n k b = sliceStop n b k := by
    unfold sliceStop npStop npClamp
    cases b with
    | none => simp only; split <;> split <;> omega
    | some i =>
      simp only
      by_cases h1 : 0 < k
      · have h2 : ¬ k < 0 := by omega
        simp only [h1, h2, if_true, if_false]
        split <;> omega
      · have h2 : k < 0 := by omega
        simp only [h1, h2, if_true, if_false]
        split <;> omega
  have hmain : Selects n a b k (((pyRange (sliceStart n a k) (sliceStop n b k) k).map
      Int.toNat).map Int.ofNat) := by
    have : ((pyRange (sliceStart n a k) (sliceStop n b k) k).map Int.toNat).map Int.ofNat =
        pyRange (sliceStart n a k) (sliceStop n b k) k := by
      rw [List.map_map]
      conv_rhs => rw [← List.map_id (pyRange _ _ _)]
      apply List.map_congr_left
      intro z hz
      have := hbnd _ _ rfl rfl z hz
      simp [this]
    rw [this]
    exact pyRange_isRange _ _ _ hs
  rw [e1, e2]
  exact hmain

/-- The number of elements selected is the length of the sliced axis. -/
theorem npSlice_of_selects {n : Nat} {a b s : Option Int} (hs : s.getD 1 ≠ 0) {l : List Nat}
    (h : Selects n a b (s.getD 1) (l.map Int.ofNat)) : npSlice n a b s = l := by
  have := isRange_unique (npSlice_selects (n := n) (a := a) (b := b) hs) h
  exact (List.map_inj_right (fun x y h => by simpa using h)).1 this

/-! ## Grids -/

theorem cartesian_map {α β : Type} (f : α → β) (ls : List (List α)) :
    (cartesian ls).map (List.map f) = cartesian (ls.map (List.map f)) := by
  induction ls with
  | nil => rfl
  | cons l ls ih =>
    simp only [cartesian, List.map_cons, List.map_flatMap, List.flatMap_map, ← ih, List.map_map]
    rfl

theorem ravelGrid_ok {shape : List Nat} {ls : List (List Int)} {src : List Nat}
    (h : ravelGrid shape ls = .ok src) :
    List.Forall₂ (fun l (n : Nat) => ∀ i ∈ l, 0 ≤ i ∧ i < (n : Int)) ls shape ∧
      src = (cartesian (ls.map (List.map Int.toNat))).map (ravel shape) := by
  unfold ravelGrid at h
  split at h
  · cases h
  · rename_i hlen
    split at h
    · cases h
    · rename_i hb
      cases h
      refine ⟨?_, ?_⟩
      · rw [List.forall₂_iff_zip]
        refine ⟨by simpa using hlen, ?_⟩
        intro l n hm i hi
        by_contra hcon
        exact hb ⟨(l, n), hm, i, hi, by simp only; omega⟩
      · rw [← cartesian_map, List.map_map]
        rfl

theorem ravelGrid_of {shape : List Nat} {ls : List (List Int)}
    (h : List.Forall₂ (fun l (n : Nat) => ∀ i ∈ l, 0 ≤ i ∧ i < (n : Int)) ls shape) :
    ravelGrid shape ls = .ok ((cartesian (ls.map (List.map Int.toNat))).map (ravel shape)) := by
  unfold ravelGrid
  rw [if_neg (by simpa using h.length_eq), if_neg]
  · rw [← cartesian_map, List.map_map]
    rfl
  · rintro ⟨⟨l, n⟩, hm, i, hi, hbad⟩
    have := (List.forall₂_iff_zip.1 h).2 hm i hi
    simp only at hbad
    omega

theorem isBlock_grid (shape : List Nat) (sels : List (List Nat)) :
    IsBlock shape sels ((cartesian sels).map (ravel shape)) := by
  refine ⟨by rw [List.length_map, cartesian_length], fun j hj => ?_⟩
  rw [List.getElem?_map, cartesian_getElem? 0 hj]
  rfl

/-- Entries of a block within the array. -/
theorem grid_inBounds {shape : List Nat} {sels : List (List Nat)}
    (h : List.Forall₂ (fun l n => ∀ i ∈ l, i < n) sels shape) {idx : List Nat}
    (hi : idx ∈ cartesian sels) : InBounds shape idx := by
  rw [mem_cartesian] at hi
  induction h generalizing idx with
  | nil => cases hi; exact .nil
  | cons h1 _ ih =>
    obtain ⟨i, is, h3, h4, rfl⟩ := List.forall₂_cons_right_iff.1 hi
    exact .cons (h1 _ h3) (ih h4)

theorem cartesian_nodup {α : Type} {ls : List (List α)} (h : ∀ l ∈ ls, l.Nodup) :
    (cartesian ls).Nodup := by
  induction ls with
  | nil => simp [cartesian]
  | cons l ls ih =>
    have ih' := ih fun l hl => h l (by simp [hl])
    rw [cartesian, List.nodup_flatMap]
    refine ⟨fun a _ => ih'.map fun x y hxy => by simpa using hxy, ?_⟩
    refine (h l (by simp)).imp fun {a b} hab => ?_
    intro x hx hy
    obtain ⟨u, _, rfl⟩ := List.mem_map.1 hx
    obtain ⟨v, _, hv⟩ := List.mem_map.1 hy
    exact hab (List.cons.inj hv).1.symm

theorem grid_nodup {shape : List Nat} {sels : List (List Nat)}
    (h : List.Forall₂ (fun l n => ∀ i ∈ l, i < n) sels shape) (hn : ∀ l ∈ sels, l.Nodup) :
    ((cartesian sels).map (ravel shape)).Nodup := by
  rw [List.nodup_map_iff_inj_on (cartesian_nodup hn)]
  intro a ha b hb hab
  exact ravel_inj (grid_inBounds h ha) (grid_inBounds h hb) hab

end OM
