import Verif.Model.Einsum
import Verif.Props.Axes

/-! # Strings of subscripts -/

namespace OM
open Spec

/-- Letters only. -/
def Spec.Alpha (a : List Char) : Prop := ∀ ch ∈ a, ch.isAlpha = true

instance (a : List Char) : Decidable (Spec.Alpha a) := inferInstanceAs (Decidable (∀ _ ∈ _, _))

/-- `ab,bc->ac` -/
def Spec.subscripts (ops : List (List Char)) (out : List Char) : List Char :=
  arrow ([','].intercalate ops) out

theorem alpha_ne {ch : Char} (h : ch.isAlpha = true) : ch ≠ ',' ∧ ch ≠ '-' ∧ ch ≠ ' ' ∧ ch ≠ '>' := by
  refine ⟨?_, ?_, ?_, ?_⟩ <;> (rintro rfl; revert h; decide)

theorem alpha_letters {a : List Char} (h : Alpha a) : Letters a := fun ch hc =>
  ⟨(alpha_ne (h ch hc)).2.1, (alpha_ne (h ch hc)).2.2.1⟩

theorem mem_intercalate {ops : List (List Char)} {ch : Char} (h : ch ∈ [','].intercalate ops) :
    ch = ',' ∨ ∃ o ∈ ops, ch ∈ o := by
  induction ops with
  | nil => simp [List.intercalate] at h
  | cons o ops ih =>
    cases ops with
    | nil => simp [List.intercalate] at h; exact .inr ⟨o, by simp, h⟩
    | cons o' ops =>
      rw [List.intercalate_cons_cons] at h
      simp only [List.mem_append] at h
      rcases h with (h | h) | h
      · exact .inr ⟨o, by simp, h⟩
      · exact .inl (by simpa using h)
      · rcases ih h with h | ⟨p, hp, h⟩
        · exact .inl h
        · exact .inr ⟨p, by simp [hp], h⟩

theorem mem_intercalate_of {ops : List (List Char)} {o : List Char} (ho : o ∈ ops) {ch : Char} (h : ch ∈ o) :
    ch ∈ [','].intercalate ops := by
  induction ops with
  | nil => simp at ho
  | cons p ops ih =>
    cases ops with
    | nil => simp at ho; subst ho; simpa [List.intercalate] using h
    | cons o' ops =>
      rw [List.intercalate_cons_cons]
      rcases List.mem_cons.1 ho with rfl | ho
      · simp [h]
      · simp [ih ho]

theorem intercalate_letters {ops : List (List Char)} (h : ∀ o ∈ ops, Alpha o) :
    Letters ([','].intercalate ops) := by
  intro ch hc
  rcases mem_intercalate hc with rfl | ⟨o, ho, hc⟩
  · decide
  · exact alpha_letters (h o ho) ch hc

theorem einsumToList_alpha {a : List Char} (h : Alpha a) (acc rest : List Char) :
    einsumToList acc (a ++ rest) = einsumToList (a.reverse ++ acc) rest := by
  induction a generalizing acc with
  | nil => rfl
  | cons x t ih =>
    rw [List.cons_append, einsumToList, if_pos (h x (by simp)), ih fun ch hc => h ch (by simp [hc])]
    simp

theorem einsumToList_subscripts {ops : List (List Char)} {out : List Char} (hne : ops ≠ [])
    (ho : ∀ o ∈ ops, Alpha o) (hout : Alpha out) :
    einsumToList [] (subscripts ops out) = ops ++ [out] := by
  have hend : ∀ acc, einsumToList acc ('-' :: '>' :: out) = [acc.reverse, out] := by
    intro acc
    have := einsumToList_alpha hout [] []
    rw [List.append_nil] at this
    rw [einsumToList, if_neg (by decide), if_pos (by simp), einsumToList, if_neg (by decide),
      if_neg (by decide), this]
    simp [einsumToList]
  unfold subscripts arrow
  induction ops with
  | nil => exact absurd rfl hne
  | cons o ops ih =>
    cases ops with
    | nil =>
      simp only [List.intercalate_singleton]
      rw [einsumToList_alpha (ho o (by simp)), hend]
      simp
    | cons o' ops =>
      rw [List.intercalate_cons_cons]
      simp only [List.append_assoc]
      rw [einsumToList_alpha (ho o (by simp))]
      simp only [List.cons_append, List.nil_append]
      rw [einsumToList, if_neg (by decide), if_pos (by simp),
        ih (by simp) fun p hp => ho p (by simp [hp])]
      simp

theorem splitComma_intercalate {ops : List (List Char)} (hne : ops ≠ []) (ho : ∀ o ∈ ops, Alpha o) :
    splitComma [] ([','].intercalate ops) = ops := by
  have hα : ∀ {a : List Char}, Alpha a → ∀ acc rest,
      splitComma acc (a ++ rest) = splitComma (a.reverse ++ acc) rest := by
    intro a h acc rest
    induction a generalizing acc with
    | nil => rfl
    | cons x t ih =>
      rw [List.cons_append, splitComma, if_neg (alpha_ne (h x (by simp))).1, ih fun ch hc => h ch (by simp [hc])]
      simp
  induction ops with
  | nil => exact absurd rfl hne
  | cons o ops ih =>
    cases ops with
    | nil =>
      have := hα (ho o (by simp)) [] []
      rw [List.append_nil] at this
      simp [this, splitComma]
    | cons o' ops =>
      rw [List.intercalate_cons_cons, List.append_assoc, hα (ho o (by simp))]
      simp only [List.cons_append, List.nil_append]
      rw [splitComma, if_pos rfl, ih (by simp) fun p hp => ho p (by simp [hp])]
      simp

theorem npParse_subscripts {ops : List (List Char)} {out : List Char} (hne : ops ≠ [])
    (ho : ∀ o ∈ ops, Alpha o) (hout : Alpha out) : npParse (subscripts ops out) = .ok (ops, out) := by
  unfold npParse subscripts
  rw [filter_arrow (intercalate_letters ho) (alpha_letters hout), splitArrow_nil (intercalate_letters ho) (alpha_letters hout)]
  simp only
  rw [splitComma_intercalate hne ho, if_pos ⟨ho, hout⟩]

end OM
