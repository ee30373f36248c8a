import Verif.Model.Axes
import Verif.Lemmas.Tensordot
import Verif.Lemmas.Gather
import Mathlib.Data.List.Perm.Subperm

/-! # Permuted and deleted axes -/

namespace OM

/-- `perm` is a permutation of the axes of an array of rank `n`. -/
structure IsAxisPerm (n : Nat) (perm : List Nat) : Prop where
  len : perm.length = n
  nodup : perm.Nodup
  lt : ∀ k ∈ perm, k < n

theorem IsAxisPerm.perm {n : Nat} {p : List Nat} (h : IsAxisPerm n p) : p.Perm (List.range n) := by
  refine List.Subperm.perm_of_length_le ?_ (by simp [h.len])
  exact List.subperm_of_subset h.nodup fun k hk => List.mem_range.2 (h.lt k hk)

theorem IsAxisPerm.mem {n : Nat} {p : List Nat} (h : IsAxisPerm n p) {k : Nat} (hk : k < n) : k ∈ p :=
  h.perm.mem_iff.2 (List.mem_range.2 hk)

theorem map_getD_range {α : Type} (l : List α) (d : α) :
    (List.range l.length).map (fun k => l.getD k d) = l := by
  apply List.ext_getElem
  · simp
  · intro i h1 h2
    simp [List.getD_eq_getElem?_getD, h2]

theorem prodShape_perm {s t : List Nat} (h : s.Perm t) : prodShape s = prodShape t := by
  induction h with
  | nil => rfl
  | cons a _ ih => rw [prodShape_cons, prodShape_cons, ih]
  | swap a b l => simp only [prodShape_cons]; ring
  | trans _ _ h1 h2 => rw [h1, h2]

theorem prodShape_axisPerm {s perm : List Nat} (h : IsAxisPerm s.length perm) :
    prodShape (perm.map fun k => s.getD k 0) = prodShape s := by
  rw [prodShape_perm (h.perm.map _), map_getD_range]

theorem inBounds_getD {s idx : List Nat} (h : InBounds s idx) {k : Nat} (hk : k < s.length) :
    idx.getD k 0 < s.getD k 0 := by
  have hk' : k < idx.length := by rw [inBounds_length h]; exact hk
  have := (List.forall₂_iff_get.1 h).2 k hk' hk
  simpa [List.getD_eq_getElem?_getD, hk, hk'] using this

theorem inBounds_of_getD {s idx : List Nat} (hl : idx.length = s.length)
    (h : ∀ k < s.length, idx.getD k 0 < s.getD k 0) : InBounds s idx := by
  refine List.forall₂_iff_get.2 ⟨hl, fun k h1 h2 => ?_⟩
  simpa [List.getD_eq_getElem?_getD, h1, h2] using h k h2

theorem getD_map {α β : Type} {l : List α} {f : α → β} {k : Nat} (d : α) (e : β) (h : k < l.length) :
    (l.map f).getD k e = f (l.getD k d) := by
  simp [List.getD_eq_getElem?_getD, h]

theorem inBounds_axisPerm {s perm idx : List Nat} (h : IsAxisPerm s.length perm) (hb : InBounds s idx) :
    InBounds (perm.map fun k => s.getD k 0) (perm.map fun k => idx.getD k 0) := by
  refine inBounds_of_getD (by simp) fun k hk => ?_
  rw [List.length_map] at hk
  rw [getD_map 0 0 hk, getD_map 0 0 hk]
  refine inBounds_getD hb (h.lt _ ?_)
  rw [List.getD_eq_getElem?_getD, List.getElem?_eq_getElem hk]
  exact List.getElem_mem hk

theorem getD_idxOf {l : List Nat} {a : Nat} (h : a ∈ l) : l.getD (l.idxOf a) 0 = a := by
  have h1 := List.idxOf_lt_length_of_mem h
  rw [List.getD_eq_getElem?_getD, List.getElem?_eq_getElem h1]
  simp

/-- Reading a permuted multi-index back. -/
theorem axisPerm_inv {perm idx : List Nat} (h : IsAxisPerm idx.length perm) :
    ((List.range idx.length).map fun ax => (perm.map fun k => idx.getD k 0).getD (perm.idxOf ax) 0) = idx := by
  conv_rhs => rw [← map_getD_range idx 0]
  refine List.map_congr_left fun ax hax => ?_
  have hm := h.mem (List.mem_range.1 hax)
  rw [getD_map 0 0 (List.idxOf_lt_length_of_mem hm), getD_idxOf hm]

/-- The entry of a transposed array at the permuted multi-index. -/
theorem npTranspose_ravel {α : Type} {s perm idx : List Nat} (h : IsAxisPerm s.length perm)
    (hb : InBounds s idx) (x : Nat → α) :
    npTranspose s perm x (ravel (perm.map fun k => s.getD k 0) (perm.map fun k => idx.getD k 0)) =
      x (ravel s idx) := by
  have hl := inBounds_length hb
  show x (ravel s _) = _
  rw [unravel_ravel (inBounds_axisPerm h hb), ← hl, axisPerm_inv (hl ▸ h)]

/-- Every entry of a transposed array is at a permuted multi-index. -/
theorem axisPerm_surj {s perm : List Nat} (h : IsAxisPerm s.length perm) {r : Nat}
    (hr : r < prodShape s) : ∃ idx, InBounds s idx ∧
      r = ravel (perm.map fun k => s.getD k 0) (perm.map fun k => idx.getD k 0) := by
  rw [← prodShape_axisPerm h] at hr
  have hb := unravel_inBounds hr
  have hlen := inBounds_length hb
  rw [List.length_map] at hlen
  generalize hj : unravel (perm.map fun k => s.getD k 0) r = j at hb hlen
  refine ⟨(List.range s.length).map fun ax => j.getD (perm.idxOf ax) 0, ?_, ?_⟩
  · refine inBounds_of_getD (by simp) fun k hk => ?_
    have hm := h.mem hk
    have h1 := List.idxOf_lt_length_of_mem hm
    have h2 := inBounds_getD hb (k := perm.idxOf k) (by simpa using h1)
    rw [getD_map 0 0 h1, getD_idxOf hm] at h2
    rw [getD_map 0 0 (by simpa using hk)]
    simpa [List.getD_eq_getElem?_getD, hk] using h2
  · have : (perm.map fun k => ((List.range s.length).map fun ax => j.getD (perm.idxOf ax) 0).getD k 0) = j := by
      apply List.ext_getElem
      · simp [hlen]
      · intro i h1 h2
        have h3 : i < perm.length := by simpa using h1
        have h4 := h.lt _ (List.getElem_mem h3)
        simp [List.getD_eq_getElem?_getD, h4, h.nodup.idxOf_getElem, h2]
    rw [this, ← hj, ravel_unravel hr]

end OM
