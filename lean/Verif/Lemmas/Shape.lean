import Verif.Model.Numpy
import Mathlib.Tactic.Ring
import Mathlib.Data.List.GetD
import Mathlib.Tactic.Linarith

/-! # Row-major order -/

namespace OM

theorem prodShape_cons (n : Nat) (ns : List Nat) : prodShape (n :: ns) = n * prodShape ns := by
  simp [prodShape]

theorem prodShape_nil : prodShape [] = 1 := rfl

theorem ravel_lt {shape idx : List Nat} (h : InBounds shape idx) : ravel shape idx < prodShape shape := by
  induction h with
  | nil => simp [ravel, prodShape]
  | cons h _ ih =>
    rename_i i n is ns _
    rw [prodShape_cons]
    show i * prodShape ns + ravel ns is < _
    have : (i + 1) * prodShape ns ≤ n * prodShape ns := Nat.mul_le_mul_right _ h
    have e : (i + 1) * prodShape ns = i * prodShape ns + prodShape ns := by ring
    omega

theorem unravel_ravel {shape idx : List Nat} (h : InBounds shape idx) :
    unravel shape (ravel shape idx) = idx := by
  induction h with
  | nil => rfl
  | cons h hs ih =>
    rename_i i n is ns
    have hlt := ravel_lt hs
    show _ :: _ = _
    have e : ravel (n :: ns) (i :: is) = i * prodShape ns + ravel ns is := rfl
    rw [e]
    congr 1
    · rw [Nat.add_comm, Nat.add_mul_div_right _ _ (by omega), Nat.div_eq_of_lt hlt, Nat.zero_add]
    · rw [Nat.add_comm, Nat.add_mul_mod_self_right, Nat.mod_eq_of_lt hlt, ih]

theorem unravel_inBounds {shape : List Nat} {k : Nat} (h : k < prodShape shape) :
    InBounds shape (unravel shape k) := by
  induction shape generalizing k with
  | nil => exact .nil
  | cons n ns ih =>
    rw [prodShape_cons] at h
    have hp : 0 < prodShape ns := by
      rcases Nat.eq_zero_or_pos (prodShape ns) with h0 | h0
      · rw [h0] at h; simp at h
      · exact h0
    exact .cons ((Nat.div_lt_iff_lt_mul hp).2 h) (ih (Nat.mod_lt _ hp))

theorem ravel_unravel {shape : List Nat} {k : Nat} (h : k < prodShape shape) :
    ravel shape (unravel shape k) = k := by
  induction shape generalizing k with
  | nil => simp [prodShape] at h; simp [ravel, h]
  | cons n ns ih =>
    rw [prodShape_cons] at h
    have hp : 0 < prodShape ns := by
      rcases Nat.eq_zero_or_pos (prodShape ns) with h0 | h0
      · rw [h0] at h; simp at h
      · exact h0
    show k / prodShape ns * prodShape ns + ravel ns (unravel ns (k % prodShape ns)) = k
    rw [ih (Nat.mod_lt _ hp), Nat.div_add_mod']

theorem ravel_inj {shape i j : List Nat} (hi : InBounds shape i) (hj : InBounds shape j)
    (h : ravel shape i = ravel shape j) : i = j := by
  rw [← unravel_ravel hi, ← unravel_ravel hj, h]

theorem inBounds_length {shape idx : List Nat} (h : InBounds shape idx) : idx.length = shape.length :=
  h.length_eq

theorem cartesian_length {α : Type} (ls : List (List α)) :
    (cartesian ls).length = prodShape (ls.map List.length) := by
  induction ls with
  | nil => rfl
  | cons l ls ih =>
    rw [List.map_cons, prodShape_cons, ← ih]
    simp [cartesian, List.length_flatMap]

theorem mem_cartesian {α : Type} {ls : List (List α)} {idx : List α} :
    idx ∈ cartesian ls ↔ List.Forall₂ (· ∈ ·) idx ls := by
  induction ls generalizing idx with
  | nil => simp [cartesian]
  | cons l ls ih =>
    simp only [cartesian, List.mem_flatMap, List.mem_map, List.forall₂_cons_right_iff]
    constructor
    · rintro ⟨a, ha, t, ht, rfl⟩
      exact ⟨a, t, ha, ih.1 ht, rfl⟩
    · rintro ⟨a, t, ha, ht, rfl⟩
      exact ⟨a, ha, t, ih.2 ht, rfl⟩

theorem getElem?_flatMap_map {α β γ : Type} (l : List α) (t : List β) (f : α → β → γ)
    {i j : Nat} (hj : j < t.length) :
    (l.flatMap fun a => t.map (f a))[i * t.length + j]? = l[i]?.bind fun a => t[j]?.map (f a) := by
  induction l generalizing i with
  | nil => simp
  | cons a l ih =>
    cases i with
    | zero =>
      simp only [List.flatMap_cons, Nat.zero_mul, Nat.zero_add]
      rw [List.getElem?_append_left (by simpa using hj)]
      simp
    | succ i =>
      simp only [List.flatMap_cons]
      rw [List.getElem?_append_right (by simp; nlinarith)]
      have : (i + 1) * t.length + j - (List.map (f a) t).length = i * t.length + j := by
        rw [List.length_map, Nat.add_mul, Nat.one_mul]; omega
      rw [this, ih]
      simp

/-- The entry of the grid at a multi-index. -/
theorem cartesian_getElem? {α : Type} (d : α) {ls : List (List α)} {j : List Nat}
    (h : InBounds (ls.map List.length) j) :
    (cartesian ls)[ravel (ls.map List.length) j]? =
      some (List.zipWith (fun l i => l.getD i d) ls j) := by
  induction ls generalizing j with
  | nil => cases h; rfl
  | cons l ls ih =>
    obtain ⟨i, js, hi, hj, rfl⟩ := List.forall₂_cons_right_iff.1 h
    have hr := ravel_lt hj
    have e : ravel ((l :: ls).map List.length) (i :: js) =
        i * (cartesian ls).length + ravel (ls.map List.length) js := by
      rw [cartesian_length]; rfl
    rw [e]
    show (l.flatMap fun a => (cartesian ls).map (a :: ·))[_]? = _
    rw [getElem?_flatMap_map l (cartesian ls) (fun a b => a :: b)
      (by rw [cartesian_length]; exact hr), ih hj]
    rw [List.zipWith_cons_cons, List.getElem?_eq_getElem hi, List.getD_eq_getElem _ _ hi]
    rfl

end OM
