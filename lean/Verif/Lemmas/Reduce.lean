import Verif.Model.Reduce
import Verif.Spec.Reduce
import Verif.Lemmas.Shape
import Verif.Lemmas.Component

namespace OM
open Spec

/-! ## Axes as a mask -/

def dropMask {α : Type} : List Bool → List α → List α
  | m :: ms, x :: xs => if m then dropMask ms xs else x :: dropMask ms xs
  | _, _ => []

/-- The entries `dropMask` leaves out. -/
def keepMask {α : Type} : List Bool → List α → List α
  | m :: ms, x :: xs => if m then x :: keepMask ms xs else keepMask ms xs
  | _, _ => []

def axisMask (axes : List Nat) (k : Nat) : Nat → List Bool
  | 0 => []
  | n + 1 => decide (k ∈ axes) :: axisMask axes (k + 1) n

theorem axisMask_length (axes : List Nat) (k n : Nat) : (axisMask axes k n).length = n := by
  induction n generalizing k with
  | zero => rfl
  | succ n ih => simp [axisMask, ih]

theorem npDelete_aux {α : Type} (axes : List Nat) (l : List α) (k : Nat) :
    ((l.zipIdx k).filter fun p => p.2 ∉ axes).map Prod.fst = dropMask (axisMask axes k l.length) l := by
  induction l generalizing k with
  | nil => rfl
  | cons a l ih =>
    simp only [List.zipIdx_cons, List.length_cons, axisMask, dropMask]
    by_cases h : k ∈ axes
    · simp only [h, not_true_eq_false, decide_false, decide_true, List.filter_cons, if_true]
      simpa using ih (k + 1)
    · simp only [h, not_false_eq_true, decide_true, decide_false, List.filter_cons, if_true]
      simpa using ih (k + 1)

theorem npDelete_eq {α : Type} (axes : List Nat) (l : List α) :
    npDelete axes l = dropMask (axisMask axes 0 l.length) l := npDelete_aux axes l 0

theorem unravel_length (shape : List Nat) (c : Nat) : (unravel shape c).length = shape.length := by
  induction shape generalizing c with
  | nil => rfl
  | cons n ns ih => simp [unravel, ih]

/-- `redRow` by mask. -/
def maskRow (shape : List Nat) (mask : List Bool) (c : Nat) : Nat :=
  ravel (dropMask mask shape) (dropMask mask (unravel shape c))

theorem redRow_eq (shape axes : List Nat) (c : Nat) :
    redRow shape axes c = maskRow shape (axisMask axes 0 shape.length) c := by
  unfold redRow maskRow
  rw [npDelete_eq, npDelete_eq, unravel_length]

theorem maskRow_cons (n : Nat) (ns : List Nat) (m : Bool) (ms : List Bool) (c : Nat) :
    maskRow (n :: ns) (m :: ms) c =
      if m then maskRow ns ms (c % prodShape ns)
      else c / prodShape ns * prodShape (dropMask ms ns) + maskRow ns ms (c % prodShape ns) := by
  cases m <;> simp [maskRow, dropMask, unravel, ravel]

theorem dropMask_inBounds {shape idx : List Nat} {mask : List Bool} (h : InBounds shape idx) :
    InBounds (dropMask mask shape) (dropMask mask idx) := by
  induction h generalizing mask with
  | nil => cases mask <;> exact .nil
  | cons h hs ih =>
    cases mask with
    | nil => exact .nil
    | cons m ms =>
      cases m
      · exact .cons h ih
      · exact ih

theorem maskRow_lt {shape : List Nat} {mask : List Bool} {c : Nat} (h : c < prodShape shape) :
    maskRow shape mask c < prodShape (dropMask mask shape) :=
  ravel_lt (dropMask_inBounds (unravel_inBounds h))

theorem redRow_lt {shape axes : List Nat} {c : Nat} (h : c < prodShape shape) :
    redRow shape axes c < prodShape (npDelete axes shape) := by
  rw [redRow_eq, npDelete_eq]
  exact maskRow_lt h

/-! ## Size of a group -/

theorem mul_add_mod_lt {q P c : Nat} (h : c < P) : (q * P + c) % P = c := by
  rw [Nat.mul_comm, Nat.mul_add_mod, Nat.mod_eq_of_lt h]

theorem mul_add_div_lt {q P c : Nat} (h : c < P) : (q * P + c) / P = q := by
  rw [Nat.mul_comm, Nat.mul_add_div (by omega), Nat.div_eq_of_lt h, Nat.add_zero]

theorem sum_map_range {β : Type} [AddCommMonoid β] (n : Nat) (f : Nat → β) :
    ((List.range n).map f).sum = ∑ q ∈ Finset.range n, f q := by
  induction n with
  | zero => simp
  | succ n ih => rw [List.range_succ, Finset.sum_range_succ, ← ih]; simp

theorem range_mul (n P : Nat) :
    List.range (n * P) = (List.range n).flatMap fun q => (List.range P).map fun c => q * P + c := by
  induction n with
  | zero => simp
  | succ n ih =>
    rw [Nat.succ_mul, List.range_add, ih, List.range_succ, List.flatMap_append]
    simp

theorem countP_flatMap_range {n P : Nat} (p : Nat → Bool) :
    (List.range (n * P)).countP p =
      ((List.range n).map fun q => (List.range P).countP fun c => p (q * P + c)).sum := by
  rw [range_mul, List.countP_flatMap]
  congr 1
  apply List.map_congr_left
  intro q _
  simp [List.countP_map, Function.comp_def]

theorem countP_maskRow {shape : List Nat} {mask : List Bool} (hm : mask.length = shape.length) {r : Nat}
    (hr : r < prodShape (dropMask mask shape)) :
    (List.range (prodShape shape)).countP (fun c => maskRow shape mask c = r) =
      prodShape (keepMask mask shape) := by
  induction shape generalizing mask r with
  | nil =>
    cases mask with
    | nil => simp [dropMask, prodShape] at hr; simp [keepMask, prodShape, maskRow, ravel, hr, dropMask]
    | cons m ms => simp at hm
  | cons n ns ih =>
    cases mask with
    | nil => simp at hm
    | cons m ms =>
      have hm' : ms.length = ns.length := by simpa using hm
      rw [prodShape_cons, countP_flatMap_range]
      have key : ∀ q < n, ((List.range (prodShape ns)).countP fun c =>
            decide (maskRow (n :: ns) (m :: ms) (q * prodShape ns + c) = r)) =
          (List.range (prodShape ns)).countP fun c => decide
            ((if m then maskRow ns ms c else q * prodShape (dropMask ms ns) + maskRow ns ms c) = r) := by
        intro q _
        apply List.countP_congr
        intro c hc
        rw [List.mem_range] at hc
        rw [maskRow_cons, mul_add_mod_lt hc, mul_add_div_lt hc]
      rw [show ((List.range n).map fun q => (List.range (prodShape ns)).countP fun c =>
            decide (maskRow (n :: ns) (m :: ms) (q * prodShape ns + c) = r)) = _ from
          List.map_congr_left fun q hq => key q (List.mem_range.1 hq)]
      cases m with
      | true =>
        simp only [if_true]
        rw [show ∀ k : Nat, ((List.range n).map fun _ => k) = List.replicate n k from fun k => by simp]
        rw [List.sum_replicate, ih hm' (by simpa [dropMask] using hr)]
        simp [keepMask, prodShape_cons]
      | false =>
        simp only [Bool.false_eq_true, if_false, keepMask]
        simp only [dropMask, Bool.false_eq_true, if_false, prodShape_cons] at hr
        set M := prodShape (dropMask ms ns) with hM
        have hMpos : 0 < M := by
          rcases Nat.eq_zero_or_pos M with h | h
          · rw [h] at hr; simp at hr
          · exact h
        have hq : ∀ q < n, ((List.range (prodShape ns)).countP fun c =>
            decide (q * M + maskRow ns ms c = r)) = if q = r / M then prodShape (keepMask ms ns) else 0 := by
          intro q _
          by_cases h : q = r / M
          · rw [if_pos h, ← ih hm' (r := r % M) (Nat.mod_lt _ hMpos)]
            apply List.countP_congr
            intro c _
            have := Nat.div_add_mod r M
            rw [h, Nat.mul_comm (r / M)]
            simp only [decide_eq_true_eq]
            omega
          · rw [if_neg h, List.countP_eq_zero]
            intro c hc
            rw [List.mem_range] at hc
            simp only [decide_eq_true_eq]
            intro he
            apply h
            have hl := maskRow_lt (mask := ms) hc
            rw [← he, mul_add_div_lt hl]
        rw [show ((List.range n).map fun q => (List.range (prodShape ns)).countP fun c =>
            decide (q * M + maskRow ns ms c = r)) = _ from
          List.map_congr_left fun q h => hq q (List.mem_range.1 h)]
        have hlt : r / M < n := Nat.div_lt_of_lt_mul (by rwa [Nat.mul_comm])
        rw [sum_map_range, Finset.sum_ite_eq' (Finset.range n)]
        simp [hlt]

theorem redGroup_length {shape axes : List Nat} {r : Nat} (hr : r < prodShape (npDelete axes shape)) :
    (redGroup shape axes r).length = prodShape (keepMask (axisMask axes 0 shape.length) shape) := by
  rw [npDelete_eq] at hr
  rw [← countP_maskRow (axisMask_length _ _ _) hr, List.countP_eq_length_filter]
  simp only [redGroup, redRow_eq]

theorem mem_redGroup {shape axes : List Nat} {r c : Nat} :
    c ∈ redGroup shape axes r ↔ c < prodShape shape ∧ redRow shape axes c = r := by
  simp [redGroup]

/-- One element per group if the reduced axes are not empty. -/
theorem redGroup_ne_nil {shape axes : List Nat} (hp : ∀ n ∈ shape, 0 < n) {r : Nat}
    (hr : r < prodShape (npDelete axes shape)) : redGroup shape axes r ≠ [] := by
  intro h
  have := redGroup_length hr
  rw [h] at this
  simp only [List.length_nil] at this
  have hk : ∀ (mask : List Bool) (l : List Nat), (∀ n ∈ l, 0 < n) → 0 < prodShape (keepMask mask l) := by
    intro mask l
    induction l generalizing mask with
    | nil => intro _; cases mask <;> simp [keepMask, prodShape]
    | cons n ns ih =>
      intro hl
      cases mask with
      | nil => simp [keepMask, prodShape]
      | cons m ms =>
        cases m
        · simpa [keepMask] using ih ms fun n hn => hl n (by simp [hn])
        · simp only [keepMask, if_true, prodShape_cons]
          exact Nat.mul_pos (hl n (by simp)) (ih ms fun n hn => hl n (by simp [hn]))
  have := hk (axisMask axes 0 shape.length) shape hp
  omega

theorem axisMask_none (k n : Nat) {axes : List Nat} (h : ∀ a ∈ axes, a < k) :
    axisMask axes k n = List.replicate n false := by
  induction n generalizing k with
  | zero => rfl
  | succ n ih =>
    have : k ∉ axes := fun hk => absurd (h k hk) (by omega)
    simp [axisMask, this, List.replicate_succ, ih (k + 1) fun a ha => by have := h a ha; omega]

theorem keepMask_false {α : Type} (n : Nat) (l : List α) : keepMask (List.replicate n false) l = [] := by
  induction n generalizing l with
  | zero => cases l <;> rfl
  | succ n ih =>
    cases l with
    | nil => rfl
    | cons a l => simp [List.replicate_succ, keepMask, ih]

theorem keepMask_single {shape : List Nat} {a k : Nat} (h : k ≤ a) :
    prodShape (keepMask (axisMask [a] k shape.length) shape) = (shape[a - k]?).getD 1 := by
  induction shape generalizing k with
  | nil => simp [axisMask, keepMask, prodShape]
  | cons n ns ih =>
    simp only [List.length_cons, axisMask, keepMask]
    by_cases hk : k = a
    · subst hk
      rw [axisMask_none (k + 1) ns.length (by simp), keepMask_false]
      simp [prodShape]
    · rw [if_neg (by simp [hk]), ih (by omega)]
      have : a - k = (a - (k + 1)) + 1 := by omega
      rw [this]
      simp

/-! ## Sums over groups -/

theorem sum_filter_map (l : List Nat) (p : Nat → Prop) [DecidablePred p] (x : Nat → ℝ) :
    ((l.filter fun c => p c).map x).sum = (l.map fun c => if p c then x c else 0).sum := by
  induction l with
  | nil => rfl
  | cons a l ih =>
    by_cases h : p a <;> simp [h, ih]

/-- A matrix with one entry per column, applied. -/
theorem cooApply_cols (N : Nat) (row : Nat → Nat) (d : Nat → ℝ) (y : Nat → ℝ) (i : Nat) :
    cooApply ((List.range N).map row) (List.range N) ((List.range N).map d) y i =
      (((List.range N).filter fun c => row c = i).map fun c => d c * y c).sum := by
  rw [sum_filter_map]
  unfold cooApply
  congr 1
  have : ((List.range N).map row).zip ((List.range N).zip ((List.range N).map d)) =
      (List.range N).map fun c => (row c, c, d c) := by
    induction (List.range N) with
    | nil => rfl
    | cons a l ih => simp [ih]
  rw [this, List.map_map]
  rfl

theorem cartesian_range (shape : List Nat) :
    cartesian (shape.map List.range) = (List.range (prodShape shape)).map (unravel shape) := by
  induction shape with
  | nil => simp [cartesian, prodShape, unravel]
  | cons n ns ih =>
    rw [List.map_cons, cartesian, ih, prodShape_cons, range_mul, List.map_flatMap]
    apply List.flatMap_congr
    intro q _
    rw [List.map_map, List.map_map]
    apply List.map_congr_left
    intro c hc
    rw [List.mem_range] at hc
    simp only [Function.comp_apply, unravel]
    rw [mul_add_mod_lt hc, mul_add_div_lt hc]

/-- The values reduced to one entry, by flat position and by multi-index. -/
theorem map_redGroup {shape axes j : List Nat} (hj : InBounds (npDelete axes shape) j) (x : Nat → ℝ) :
    (redGroup shape axes (ravel (npDelete axes shape) j)).map x = fibreValues shape axes x j := by
  unfold fibreValues fibre indices redGroup
  rw [cartesian_range, List.filter_map, List.map_map]
  have hf : (List.range (prodShape shape)).filter
        (fun c => redRow shape axes c = ravel (npDelete axes shape) j) =
      (List.range (prodShape shape)).filter
        ((fun idx => decide (npDelete axes idx = j)) ∘ unravel shape) := by
    apply List.filter_congr
    intro c hc
    rw [List.mem_range] at hc
    refine decide_eq_decide.2 ⟨?_, ?_⟩
    · intro h
      refine ravel_inj ?_ hj h
      rw [npDelete_eq, npDelete_eq, unravel_length]
      exact dropMask_inBounds (unravel_inBounds hc)
    · intro h; rw [redRow, h]
  rw [hf]
  apply List.map_congr_left
  intro c hc
  have := (List.mem_filter.1 hc).1
  rw [List.mem_range] at this
  simp only [Function.comp_apply]
  rw [ravel_unravel this]

end OM
