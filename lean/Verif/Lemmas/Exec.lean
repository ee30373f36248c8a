import Mathlib.Data.List.Induction
import Verif.Spec.Eval
import Verif.Spec.Graph

namespace OM
open Spec

variable {V : String → Type}

/-- Different components write different variables. -/
def OwnNames (N : Nat → Prop) (comp : Nat → Comp V) : Prop :=
  ∀ u v n, N u → N v → n ∈ (comp u).writes → n ∈ (comp v).writes → u = v

theorem eval_unique {N : Nat → Prop} {comp : Nat → Comp V} (hown : OwnNames N comp) {init : Store V}
    {n : String} {a : V n} (ha : Eval N comp init n a) : ∀ {b : V n}, Eval N comp init n b → a = b := by
  induction ha with
  | given n h =>
    intro b hb
    cases hb with
    | given => rfl
    | computed u _ hu hn => exact absurd hn (h u hu)
  | computed u n hu hn x hx ih =>
    intro b hb
    cases hb with
    | given _ h => exact absurd hn (h u hu)
    | computed v _ hv hn' y hy =>
      obtain rfl := hown u v n hu hv hn hn'
      have : x = y := funext fun i => ih i (hy i)
      rw [this]

theorem runAll_append (l l' : List (Comp V)) (s : Store V) :
    runAll (l ++ l') s = runAll l' (runAll l s) := by
  simp [runAll, List.foldl_append]

theorem before_mem_prefix {l p s : List Nat} {u v : Nat} (hnd : l.Nodup) (hl : l = p ++ u :: s)
    (h : Before l v u) : v ∈ p := by
  obtain ⟨a, b, c, h⟩ := h
  subst hl
  have h' : p ++ u :: s = (a ++ v :: b) ++ u :: c := by simpa using h
  have hu : u ∉ p := by
    intro hm
    have := List.nodup_append.1 hnd
    exact this.2.2 u hm u (by simp) rfl
  have hu' : u ∉ a ++ v :: b := by
    rw [h'] at hnd
    intro hm
    have := List.nodup_append.1 hnd
    exact this.2.2 u hm u (by simp) rfl
  have : p = a ++ v :: b := by
    clear hnd h
    generalize a ++ v :: b = q at *
    induction p generalizing q with
    | nil =>
      cases q with
      | nil => rfl
      | cons y q =>
        simp only [List.nil_append, List.cons_append, List.cons.injEq] at h'
        simp [h'.1] at hu'
    | cons x p ih =>
      cases q with
      | nil =>
        simp only [List.nil_append, List.cons_append, List.cons.injEq] at h'
        simp [h'.1] at hu
      | cons y q =>
        simp only [List.cons_append, List.cons.injEq] at h'
        rw [h'.1, ih (by simp at hu; exact hu.2) q h'.2 (by simp at hu'; exact hu'.2)]
  rw [this]; simp

/-- Running the components in an order that respects the reads gives every variable its value. -/
theorem runAll_eval {comp : Nat → Comp V} {l : List Nat} (hnd : l.Nodup)
    (hown : OwnNames (· ∈ l) comp)
    (hreads : ∀ u ∈ l, ∀ n ∈ (comp u).reads,
      (∀ v ∈ l, n ∉ (comp v).writes) ∨ ∃ v, Before l v u ∧ n ∈ (comp v).writes)
    (init : Store V) (n : String) :
    Eval (· ∈ l) comp init n (runAll (l.map comp) init n) := by
  have key : ∀ p s, l = p ++ s → ∀ n,
      ((∀ v ∈ l, n ∉ (comp v).writes) ∨ ∃ v ∈ p, n ∈ (comp v).writes) →
      Eval (· ∈ l) comp init n (runAll (p.map comp) init n) := by
    intro p
    induction p using List.reverseRecOn with
    | nil =>
      intro s _ n h
      rcases h with h | ⟨v, hv, _⟩
      · exact Eval.given n h
      · simp at hv
    | append_singleton p u ih =>
      intro s hs n h
      have hs' : l = p ++ u :: s := by rw [hs]; simp
      have hu : u ∈ l := by rw [hs']; simp
      rw [List.map_append, runAll_append]
      show Eval _ _ _ n ((comp u).run _ n)
      unfold Comp.run
      by_cases hn : n ∈ (comp u).writes
      · rw [if_pos hn]
        refine Eval.computed (N := (· ∈ l)) u n hu hn _ fun i => ?_
        refine ih (u :: s) hs' _ ?_
        rcases hreads u hu (comp u).reads[i] (List.getElem_mem _) with h | ⟨v, hv, hm⟩
        · exact Or.inl h
        · exact Or.inr ⟨v, before_mem_prefix hnd hs' hv, hm⟩
      · rw [if_neg hn]
        refine ih (u :: s) hs' n ?_
        rcases h with h | ⟨v, hv, hm⟩
        · exact Or.inl h
        · refine Or.inr ⟨v, ?_, hm⟩
          rcases List.mem_append.1 hv with hv | hv
          · exact hv
          · obtain rfl : v = u := by simpa using hv
            exact absurd hm hn
  refine key l [] (by simp) n ?_
  by_cases h : ∃ v ∈ l, n ∈ (comp v).writes
  · exact Or.inr h
  · left
    intro v hv hm
    exact h ⟨v, hv, hm⟩

theorem eval_congr {N N' : Nat → Prop} {comp : Nat → Comp V} (h : ∀ u, N u ↔ N' u) {init : Store V}
    {n : String} {a : V n} (ha : Eval N comp init n a) : Eval N' comp init n a := by
  have : N = N' := funext fun u => propext (h u)
  rwa [← this]

end OM
