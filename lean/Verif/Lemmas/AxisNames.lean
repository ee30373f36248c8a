import Verif.Model.Reduce

/-! # Axes named by non-negative and negative numbers -/

namespace OM
open Spec

/-- Axis `k` of an array of rank `rank` is named by `k`, or by the negative number `k - rank`. -/
def Spec.NamesAxis (rank : Nat) (a : Int) (k : Nat) : Prop := k < rank ∧ (a = k ∨ a + rank = k)

/-- The tuple `ax` names the axes `l`, no axis twice. -/
def Spec.NamesAxes (rank : Nat) (ax : List Int) (l : List Nat) : Prop :=
  l.Nodup ∧ List.Forall₂ (NamesAxis rank) ax l

theorem mapM_some_iff {α β : Type} {f : α → Option β} {l : List α} {m : List β} :
    l.mapM f = some m ↔ List.Forall₂ (fun a b => f a = some b) l m := by
  induction l generalizing m with
  | nil => cases m <;> simp
  | cons a l ih =>
    rw [List.mapM_cons]
    cases hf : f a with
    | none =>
      simp only [Option.bind_eq_bind, Option.bind_none, reduceCtorEq, false_iff]
      intro h
      cases h with
      | cons h1 _ => rw [hf] at h1; cases h1
    | some b =>
      cases hm : l.mapM f with
      | none =>
        simp only [Option.bind_eq_bind, Option.bind_some, Option.bind_none, reduceCtorEq, false_iff]
        intro h
        cases h with
        | cons _ h2 => rw [← ih, hm] at h2; cases h2
      | some m' =>
        simp only [Option.bind_eq_bind, Option.bind_some, Option.pure_def, Option.some.injEq]
        constructor
        · rintro rfl
          exact .cons hf (ih.1 hm)
        · intro h
          cases h with
          | cons h1 h2 =>
            rw [hf] at h1
            rw [← ih, hm] at h2
            cases h1; cases h2; rfl

theorem normAxis_iff {rank : Nat} {a : Int} {k : Nat} : normAxis rank a = some k ↔ NamesAxis rank a k := by
  unfold normAxis NamesAxis
  split
  · rw [Option.some.injEq]; omega
  · split
    · rw [Option.some.injEq]; omega
    · simp only [reduceCtorEq, false_iff]; omega

theorem normAxes_iff {rank : Nat} {ax : List Int} {l : List Nat} :
    normAxes rank ax = .ok l ↔ NamesAxes rank ax l := by
  have h : ∀ l, ax.mapM (normAxis rank) = some l ↔ List.Forall₂ (NamesAxis rank) ax l := by
    intro l
    rw [mapM_some_iff]
    exact ⟨fun h => h.imp fun _ _ => normAxis_iff.1, fun h => h.imp fun _ _ => normAxis_iff.2⟩
  unfold normAxes NamesAxes
  rw [← h]
  cases ax.mapM (normAxis rank) with
  | none => simp
  | some l' =>
    simp only
    split
    · rename_i hnd
      simp only [Except.ok.injEq, Option.some.injEq]
      constructor
      · rintro rfl; exact ⟨hnd, rfl⟩
      · exact fun h => h.2
    · rename_i hnd
      simp only [reduceCtorEq, Option.some.injEq, false_iff, not_and]
      rintro hnd' rfl
      exact hnd hnd'

end OM
