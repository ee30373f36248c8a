import Verif.Model.Slice
import Verif.Spec.Slice
import Mathlib.Tactic.Linarith
import Mathlib.Tactic.Ring
import Mathlib.Tactic.IntervalCases
import Mathlib.Tactic.Positivity

/-! # C16: slices -/

namespace OM
open Spec

theorem pyRange_length (a b k : Int) : (pyRange a b k).length = rangeLen a b k := by simp [pyRange]

theorem pyRange_isRange (a b k : Int) (hk : k ≠ 0) : IsRange a b k (pyRange a b k) := by
  by_cases hpos : 0 < k
  · have hlen : (rangeLen a b k : Int) = max 0 ((b - a + k - 1) / k) := by
      unfold rangeLen; rw [if_pos hpos, Int.toNat_eq_max, max_comm]
    have hmul : k * ((b - a + k - 1) / k) ≤ b - a + k - 1 := Int.mul_ediv_self_le hpos.ne'
    have hmul2 : b - a + k - 1 < k * ((b - a + k - 1) / k) + k := by
      have := Int.lt_mul_ediv_self_add (x := b - a + k - 1) hpos
      linarith
    refine ⟨fun i h => by simp [pyRange], ?_, ?_⟩
    · intro x hx
      rw [if_pos hpos]
      simp only [pyRange, List.mem_map, List.mem_range] at hx
      obtain ⟨i, hi, rfl⟩ := hx
      have hi' : (i : Int) + 1 ≤ (b - a + k - 1) / k := by omega
      nlinarith
    · rw [if_pos hpos, pyRange_length, hlen]
      have : (b - a + k - 1) / k ≤ max 0 ((b - a + k - 1) / k) := le_max_right _ _
      nlinarith
  · have hneg : k < 0 := by omega
    have hlen : (rangeLen a b k : Int) = max 0 ((a - b - k - 1) / (-k)) := by
      unfold rangeLen; rw [if_neg hpos, Int.toNat_eq_max, max_comm]
    have hmul : (-k) * ((a - b - k - 1) / (-k)) ≤ a - b - k - 1 := Int.mul_ediv_self_le (by omega)
    have hmul2 : a - b - k - 1 < (-k) * ((a - b - k - 1) / (-k)) + (-k) := by
      have := Int.lt_mul_ediv_self_add (x := a - b - k - 1) (show 0 < -k by omega)
      linarith
    refine ⟨fun i h => by simp [pyRange], ?_, ?_⟩
    · intro x hx
      rw [if_neg hpos]
      simp only [pyRange, List.mem_map, List.mem_range] at hx
      obtain ⟨i, hi, rfl⟩ := hx
      have hi' : (i : Int) + 1 ≤ (a - b - k - 1) / (-k) := by omega
      nlinarith
    · rw [if_neg hpos, pyRange_length, hlen]
      have : (a - b - k - 1) / (-k) ≤ max 0 ((a - b - k - 1) / (-k)) := le_max_right _ _
      nlinarith

theorem isRange_unique {a b k : Int} {l l' : List Int} (h : IsRange a b k l)
    (h' : IsRange a b k l') : l = l' := by
  have key : ∀ {l l' : List Int}, IsRange a b k l → IsRange a b k l' → l.length ≤ l'.length := by
    intro l l' h h'
    by_contra hlt
    have hlt' : l'.length < l.length := by omega
    have h1 := h.before l[l'.length] (List.getElem_mem _)
    rw [h.elems l'.length hlt'] at h1
    have h2 := h'.complete
    split at h1 <;> rename_i hk' <;> simp only [hk', if_true, if_false] at h2 <;> linarith
  apply List.ext_getElem (le_antisymm (key h h') (key h' h))
  intro i h1 h2
  rw [h.elems, h'.elems]

/-- What an accepted range looks like. -/
theorem checkedRange_ok {a b k : Int} {l : List Int} (h : checkedRange a b k = .ok l) :
    k ≠ 0 ∧ l = pyRange a b k ∧ l ≠ [] ∧ (∀ x ∈ l, 0 ≤ x) ∧ 0 ≤ a ∧ (0 < k → a < b) ∧
      (k < 0 → b < a) := by
  unfold checkedRange at h
  split at h
  · cases h
  · rename_i hk
    split at h
    · cases h
    · rename_i hne
      split at h
      · cases h
      · rename_i hneg
        cases h
        have hr := pyRange_isRange a b k hk
        have hpos : 0 < (pyRange a b k).length := List.length_pos_of_ne_nil hne
        have h0 : (pyRange a b k)[0] = a := by rw [hr.elems 0 hpos]; simp
        have hmem : a ∈ pyRange a b k := by
          have := List.getElem_mem hpos; rwa [h0] at this
        have hall : ∀ x ∈ pyRange a b k, 0 ≤ x := fun x hx => by
          by_contra hlt
          exact hneg ⟨x, hx, by omega⟩
        have hb := hr.before a hmem
        refine ⟨hk, rfl, hne, hall, hall a hmem, fun h => ?_, fun h => ?_⟩
        · rwa [if_pos h] at hb
        · rwa [if_neg (by omega)] at hb

theorem checkedRange_of {a b k : Int} (hk : k ≠ 0) (h0 : 0 ≤ a) (h1 : k < 0 → -1 ≤ b) {l : List Int}
    (hl : IsRange a b k l) (hne : l ≠ []) : checkedRange a b k = .ok l := by
  obtain rfl := isRange_unique (pyRange_isRange a b k hk) hl
  unfold checkedRange
  rw [if_neg hk, if_neg hne, if_neg]
  rintro ⟨x, hx, hlt⟩
  have hb := hl.before x hx
  split at hb
  · rename_i hpos
    obtain ⟨i, hi, rfl⟩ := List.getElem_of_mem hx
    rw [hl.elems i hi] at hlt
    have : 0 ≤ (i : Int) * k := by positivity
    omega
  · rename_i hpos
    have := h1 (by omega)
    omega

/-- The end of the range `slice_to_list` builds for an axis of length `n`. -/
def codeStop (n : Nat) : Option Int → Int
  | none => n
  | some j => if j < 0 then n + j else j

theorem sliceToList_ok {n : Nat} {start stop step : Option Int} {l : List Int}
    (h : sliceToList start stop step (some n) = .ok l) :
    0 ≤ codeStop n stop ∧ checkedRange (start.getD 0) (codeStop n stop) (step.getD 1) = .ok l := by
  unfold sliceToList at h
  unfold codeStop
  cases start <;> cases stop <;> simp only at h ⊢
  · exact ⟨by omega, h⟩
  · split at h
    · split at h
      · cases h
      · rename_i hj hnn
        rw [if_pos hj]; exact ⟨by omega, h⟩
    · rename_i hj
      rw [if_neg hj]; exact ⟨by omega, h⟩
  · exact ⟨by omega, h⟩
  · split at h
    · split at h
      · cases h
      · rename_i hj hnn
        rw [if_pos hj]; exact ⟨by omega, h⟩
    · rename_i hj
      rw [if_neg hj]; exact ⟨by omega, h⟩

/-- **C16**, soundness: whatever list `slice_to_list` accepts for bounds within the axis is the one
Python's slicing selects, and it is not empty and within the axis. `start` may be missing or anything
below `n`, `stop` may be missing, negative or up to `n`; any step. -/
theorem c16_never_wrong {n : Nat} {start stop step : Option Int} {l : List Int}
    (hstart : ∀ i ∈ start, i < n) (hstop : ∀ i ∈ stop, i ≤ n)
    (h : sliceToList start stop step (some n) = .ok l) :
    l ≠ [] ∧ (∀ x ∈ l, 0 ≤ x ∧ x < n) ∧ Selects n start stop (step.getD 1) l := by
  generalize hk' : step.getD 1 = k at *
  obtain ⟨b, hb, hb0, hc⟩ : ∃ b, b = codeStop n stop ∧ 0 ≤ b ∧
      checkedRange (start.getD 0) b k = .ok l :=
    ⟨_, rfl, by rw [← hk']; exact sliceToList_ok h⟩
  unfold codeStop at hb
  obtain ⟨hk, hl, hne, hall, ha, hp, hm⟩ := checkedRange_ok hc
  have hr := pyRange_isRange (start.getD 0) b k hk
  rw [← hl] at hr
  have hbn : b ≤ n := by
    cases stop with
    | none => simp only at hb; omega
    | some j =>
      have := hstop j rfl
      simp only at hb
      split at hb <;> omega
  have hsa : sliceStart n start k = start.getD 0 := by
    unfold sliceStart
    cases start with
    | none =>
      simp only [Option.getD_none] at *
      split
      · rfl
      · have := hm (by omega); omega
    | some i =>
      have hi := hstart i rfl
      simp only [Option.getD_some] at *
      rw [if_neg (show ¬ i < 0 by omega)]
      split <;> omega
  have hsb : sliceStop n stop k = b := by
    unfold sliceStop
    cases stop with
    | none =>
      simp only at hb ⊢
      split
      · exact hb.symm
      · have h1 := hm (by omega)
        cases start with
        | none => simp only [Option.getD_none] at h1; omega
        | some i => have := hstart i rfl; simp only [Option.getD_some] at h1; omega
    | some j =>
      simp only at hb ⊢
      rw [← hb]
      split
      · omega
      · have h1 := hm (by omega)
        have : b ≤ n - 1 := by
          cases start with
          | none => simp only [Option.getD_none] at h1; omega
          | some i => have := hstart i rfl; simp only [Option.getD_some] at h1; omega
        omega
  refine ⟨hne, fun x hx => ⟨hall x hx, ?_⟩, ?_⟩
  · have := hr.before x hx
    split at this
    · omega
    · rename_i hneg
      obtain ⟨i, hi, rfl⟩ := List.getElem_of_mem hx
      rw [hr.elems i hi]
      have h2 : (i : Int) * k ≤ 0 := by
        have : (0 : Int) ≤ i := by positivity
        nlinarith
      have h1 := hm (by omega)
      cases start with
      | none => simp only [Option.getD_none] at h1; omega
      | some i' =>
        have := hstart i' rfl
        simp only [Option.getD_some]; omega
  · unfold Selects
    rw [hsa, hsb]
    exact hr

/-- **C16**, completeness: with a positive (or missing) step, every slice with bounds within the axis
that selects something is accepted. -/
theorem c16_accepts_forward {n : Nat} {start stop step : Option Int} {l : List Int}
    (hstart : ∀ i ∈ start, 0 ≤ i ∧ i ≤ n) (hstop : ∀ i ∈ stop, i ≤ n) (hstep : 0 < step.getD 1)
    (hsel : Selects n start stop (step.getD 1) l) (hne : l ≠ []) :
    sliceToList start stop step (some n) = .ok l := by
  generalize hk' : step.getD 1 = k at *
  unfold Selects at hsel
  have hsa : sliceStart n start k = start.getD 0 := by
    unfold sliceStart
    cases start with
    | none => simp [hstep]
    | some i => have := hstart i rfl; simp only [Option.getD_some, hstep, if_true]; split <;> omega
  have ha : 0 ≤ start.getD 0 := by
    cases start with
    | none => simp
    | some i => have := hstart i rfl; simpa using this.1
  rw [hsa] at hsel
  have hlt : start.getD 0 < sliceStop n stop k := by
    have hpos : 0 < l.length := List.length_pos_of_ne_nil hne
    have h1 := hsel.before l[0] (List.getElem_mem hpos)
    rw [hsel.elems 0 hpos, if_pos hstep] at h1
    simpa using h1
  have hc := checkedRange_of (by omega) ha (fun h => by omega) hsel hne
  unfold sliceStop at hc hlt
  unfold sliceToList
  cases stop with
  | none =>
    simp only [hstep, if_true] at hc
    cases start with
    | none => simpa [hk'] using hc
    | some i => simpa [hk'] using hc
  | some j =>
    have hj := hstop j rfl
    simp only [hstep, if_true] at hc hlt
    by_cases hneg : j < 0
    · simp only [hneg, if_true] at hc hlt
      have h2 : max 0 (min (n : Int) (n + j)) = n + j := by omega
      rw [h2] at hc
      cases start <;> simp only [hneg, if_true, hk'] <;> rw [if_neg (by omega)] <;> exact hc
    · simp only [hneg, if_false] at hc hlt
      have h2 : max 0 (min (n : Int) j) = j := by omega
      rw [h2] at hc
      cases start <;> simp only [hneg, if_false, hk'] <;> exact hc

/-- **C16**, completeness for negative steps: accepted if both bounds are given and within the axis; `stop` may be
counted from the end. -/
theorem c16_accepts_backward {n : Nat} {i j k : Int} {l : List Int}
    (hi : 0 ≤ i ∧ i < n) (hj : -n ≤ j ∧ j < n) (hk : k < 0)
    (hsel : Selects n (some i) (some j) k l) (hne : l ≠ []) :
    sliceToList (some i) (some j) (some k) (some n) = .ok l := by
  unfold Selects at hsel
  have hsa : sliceStart n (some i) k = i := by unfold sliceStart; simp only; split <;> split <;> omega
  have hsb : sliceStop n (some j) k = if j < 0 then n + j else j := by
    unfold sliceStop; simp only; split <;> split <;> omega
  rw [hsa, hsb] at hsel
  unfold sliceToList
  simp only [Option.getD_some]
  by_cases hneg : j < 0
  · rw [if_pos hneg] at hsel ⊢
    rw [if_neg (by omega)]
    exact checkedRange_of (by omega) hi.1 (fun _ => by omega) hsel hne
  · rw [if_neg hneg] at hsel ⊢
    exact checkedRange_of (by omega) hi.1 (fun _ => by omega) hsel hne

/-- With the size of the axis given, every refusal is a `ValueError`. -/
theorem sliceToList_error {n : Nat} {start stop step : Option Int} {e : PyErr}
    (h : sliceToList start stop step (some n) = .error e) : e = .valueError := by
  have key : ∀ a b c, checkedRange a b c = .error e → e = .valueError := by
    intro a b c h
    unfold checkedRange at h
    split_ifs at h <;> cases h <;> rfl
  unfold sliceToList at h
  split at h
  · exact key _ _ _ h
  · simp only at h
    split_ifs at h
    · cases h; rfl
    · exact key _ _ _ h
    · exact key _ _ _ h
  · exact key _ _ _ h

/-- **C16**, errors: a slice within the axis that selects nothing, and any slice reaching a negative
index (such as one with a negative `start`), is refused with `ValueError`. -/
theorem c16_refuses {n : Nat} {start stop step : Option Int}
    (hstart : ∀ i ∈ start, i < n) (hstop : ∀ i ∈ stop, i ≤ n)
    (hbad : Selects n start stop (step.getD 1) [] ∨ step = some 0 ∨ ∃ i ∈ start, i < 0) :
    sliceToList start stop step (some n) = .error .valueError := by
  cases h : sliceToList start stop step (some n) with
  | error e => rw [sliceToList_error h]
  | ok l =>
    exfalso
    obtain ⟨h1, h2, h3⟩ := c16_never_wrong hstart hstop h
    have hb := (sliceToList_ok h).2
    obtain ⟨k1, _, _, _, k5, _⟩ := checkedRange_ok hb
    rcases hbad with hbad | rfl | ⟨i, hi, hlt⟩
    · exact h1 (isRange_unique h3 hbad)
    · simp at k1
    · cases start with
      | none => simp at hi
      | some i' =>
        have : i' = i := by simpa using hi
        simp only [Option.getD_some] at k5
        omega

/-- The exceptions: `ValueError` whenever the size of the axis is known, and otherwise `TypeError` if it is needed. -/
theorem c16_exceptions {start stop step : Option Int} {size : Option Nat} {e : PyErr}
    (h : sliceToList start stop step size = .error e) :
    e = .valueError ∧ (size = none → (start = none ∧ stop = none) ∨ ∃ b, stop = some b ∧ 0 ≤ b) ∨
    e = .typeError ∧ size = none ∧ ((∃ b < 0, stop = some b) ∨ (∃ a, start = some a) ∧ stop = none) := by
  have hc : ∀ {a b k : Int}, checkedRange a b k = .error e → e = .valueError := by
    intro a b k h
    unfold checkedRange at h
    split at h
    · cases h; rfl
    · split at h
      · cases h; rfl
      · split at h
        · cases h; rfl
        · cases h
  unfold sliceToList at h
  cases start with
  | none =>
    cases stop with
    | none =>
      cases size with
      | none => simp only at h; cases h; exact Or.inl ⟨rfl, by simp⟩
      | some n => exact Or.inl ⟨hc h, by simp⟩
    | some b =>
      simp only at h
      split at h
      · rename_i hb
        cases size with
        | none => simp only at h; cases h; exact Or.inr ⟨rfl, rfl, Or.inl ⟨b, hb, rfl⟩⟩
        | some n =>
          simp only at h
          split at h
          · cases h; exact Or.inl ⟨rfl, by simp⟩
          · exact Or.inl ⟨hc h, by simp⟩
      · rename_i hb
        exact Or.inl ⟨hc h, fun _ => Or.inr ⟨b, rfl, by omega⟩⟩
  | some a =>
    cases stop with
    | none =>
      cases size with
      | none => simp only at h; cases h; exact Or.inr ⟨rfl, rfl, Or.inr ⟨⟨a, rfl⟩, rfl⟩⟩
      | some n => exact Or.inl ⟨hc h, by simp⟩
    | some b =>
      simp only at h
      split at h
      · rename_i hb
        cases size with
        | none => simp only at h; cases h; exact Or.inr ⟨rfl, rfl, Or.inl ⟨b, hb, rfl⟩⟩
        | some n =>
          simp only at h
          split at h
          · cases h; exact Or.inl ⟨rfl, by simp⟩
          · exact Or.inl ⟨hc h, by simp⟩
      · rename_i hb
        exact Or.inl ⟨hc h, fun _ => Or.inr ⟨b, rfl, by omega⟩⟩

/-- **C16**, the gap: with a negative step and a missing bound every slice is refused, although Python
selects something (all elements backwards for `[::-1]`), if `start` is within the axis and `stop` before its last
element. -/
theorem c16_reversed_refused (n : Nat) (hn : 0 < n) (k : Int) (hk : k < 0) {start stop : Option Int}
    (hmiss : start = none ∨ stop = none) (hstart : ∀ i ∈ start, 0 ≤ i ∧ i < n) :
    sliceToList start stop (some k) (some n) = .error .valueError ∧
      ((∀ j ∈ stop, 0 ≤ j ∧ j + 1 < n) → ¬ Selects n start stop k []) := by
  constructor
  · cases h : sliceToList start stop (some k) (some n) with
    | error e => rw [sliceToList_error h]
    | ok l =>
      exfalso
      obtain ⟨hs, hc⟩ := sliceToList_ok h
      obtain ⟨_, _, _, _, _, _, h7⟩ := checkedRange_ok hc
      have := h7 hk
      rcases hmiss with rfl | rfl
      · simp only [Option.getD_none] at this
        omega
      · cases start with
        | none => simp only [Option.getD_none, codeStop] at this; omega
        | some i =>
          have := hstart i rfl
          simp only [Option.getD_some, codeStop] at *
          omega
  · intro hstop h
    have := h.complete
    rw [if_neg (by omega)] at this
    simp only [List.length_nil] at this
    have h1 : 0 ≤ sliceStart n start k ∧ (start = none → sliceStart n start k = n - 1) := by
      cases start with
      | none =>
        have e : sliceStart n none k = n - 1 := if_neg (by omega)
        exact ⟨by omega, fun _ => e⟩
      | some i =>
        have := hstart i rfl
        refine ⟨?_, fun e => by cases e⟩
        simp only [sliceStart, if_neg (show ¬ 0 < k by omega), if_neg (show ¬ i < 0 by omega)]
        omega
    have h2 : (stop = none → sliceStop n stop k = -1) ∧ (sliceStop n stop k + 1 < n) := by
      cases stop with
      | none =>
        have e : sliceStop n none k = -1 := if_neg (by omega)
        exact ⟨fun _ => e, by omega⟩
      | some j =>
        have := hstop j rfl
        refine ⟨fun e => (by cases e), ?_⟩
        simp only [sliceStop, if_neg (show ¬ 0 < k by omega), if_neg (show ¬ j < 0 by omega)]
        omega
    rcases hmiss with e | e
    · have := h1.2 e; omega
    · have := h2.1 e; omega

/-! ## Concrete cases -/

example : sliceToList (some 1) (some (-1)) (some 2) (some 8) = .ok [1, 3, 5] := by decide
example : sliceToList (some 5) (some 1) (some (-2)) (some 8) = .ok [5, 3] := by decide
example : sliceToList (some 5) (some (-8)) (some (-2)) (some 8) = .ok [5, 3, 1] := by decide
example : sliceToList (some (-3)) none none (some 8) = .error .valueError := by decide
example : sliceToList none none none (some 3) = .ok [0, 1, 2] := by decide

/-- The hypotheses of the theorems hold for `1:-1:2` on an axis of length 8. -/
example : sliceToList (some 1) (some (-1)) (some 2) (some 8) = .ok [1, 3, 5] :=
  c16_accepts_forward (by simp) (by simp) (by simp)
    ⟨by intro i hi; simp only [List.length_cons, List.length_nil] at hi; interval_cases i <;> rfl,
      by decide, by decide⟩ (by simp)

end OM
