import Verif.Lemmas.Setup
import Mathlib.Tactic.IntervalCases
import Mathlib.Tactic.Linarith

/-! # Graphs given by a table, for the examples -/

namespace OM
open Spec

/-- The graph where `u` has the dependencies listed in row `u`. -/
def ofAdj (adj : List (List Ref)) : Graph := fun u => adj.getD u []

theorem ofAdj_edge {adj : List (List Ref)} {a b : Ref} (h : b ∈ ofAdj adj a) : a < adj.length := by
  by_contra hge
  unfold ofAdj at h
  rw [List.getD_eq_getElem?_getD, List.getElem?_eq_none (l := adj) (i := a) (Nat.le_of_not_lt hge)] at h
  simp at h

theorem ofAdj_reach {adj : List (List Ref)} {r : Ref} (hr : r < adj.length)
    (h : ∀ u < adj.length, ∀ v ∈ ofAdj adj u, v < adj.length) {v : Ref}
    (hv : Reach (ofAdj adj) r v) : v < adj.length := by
  induction hv with
  | refl => exact hr
  | tail _ h' _ => exact h _ (ofAdj_edge h') _ h'

/-- A number per node that decreases along dependencies. -/
theorem ofAdj_acyclic {adj : List (List Ref)} (rank : Ref → Nat)
    (h : ∀ u < adj.length, ∀ v ∈ ofAdj adj u, rank v < rank u) (r : Ref) :
    AcyclicFrom (ofAdj adj) r := by
  have hrank : ∀ a b, Needs (ofAdj adj) a b → rank b < rank a := by
    intro a b hab
    induction hab with
    | single h' => exact h _ (ofAdj_edge h') _ h'
    | tail _ h' ih => exact lt_trans (h _ (ofAdj_edge h') _ h') ih
  intro v _ hvv
  exact lt_irrefl _ (hrank v v hvv)

end OM
