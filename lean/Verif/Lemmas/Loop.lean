import Verif.Lemmas.Resetup

/-! # Setup of cyclic graphs -/

namespace OM
open Spec

theorem foldlM_none {α β : Type} (f : β → α → Option β) (v : α) (hv : ∀ d, f d v = none)
    (l : List α) (hl : v ∈ l) (d : β) : l.foldlM f d = none := by
  induction l generalizing d with
  | nil => simp at hl
  | cons a l ih =>
    rw [List.foldlM_cons]
    rcases List.mem_cons.1 hl with rfl | hl
    · rw [hv]; rfl
    · cases hfa : f d a with
      | none => rfl
      | some d' => exact ih hl d'

/-- `add_fwd_edges` has no memory of visited nodes, so it never ends on a cycle. -/
theorem addFwdEdges_loop (o : SetOrder Ref) (g : Graph) (P : Ref → Prop)
    (hP : ∀ u, P u → ∃ v ∈ g u, P v) (limit : Nat) : ∀ (u : Ref) (d : Graph), P u →
    addFwdEdges o g limit u d = none := by
  induction limit with
  | zero => intro u d _; rfl
  | succ limit ih =>
    intro u d hu
    obtain ⟨v, hv, hpv⟩ := hP u hu
    unfold addFwdEdges
    exact foldlM_none _ v (fun d => ih v _ hpv) _ hv d

theorem SetOrder.list_nil {α : Type} (o : SetOrder α) : o.list [] = [] := by
  rw [List.eq_nil_iff_forall_not_mem]
  intro a ha
  simpa using (o.mem_iff [] a).1 ha

theorem SetOrder.list_singleton {α : Type} (o : SetOrder α) (x : α) : o.list [x] = [x] := by
  have h1 := o.nodup [x]
  have h2 := o.mem_iff [x]
  have hx : x ∈ o.list [x] := (h2 x).2 (by simp)
  cases hl : o.list [x] with
  | nil => rw [hl] at hx; simp at hx
  | cons a l =>
    rw [hl] at h1 h2
    have ha : a = x := by simpa using (h2 a).1 (by simp)
    cases l with
    | nil => rw [ha]
    | cons b l =>
      have hb : b = x := by simpa using (h2 b).1 (by simp)
      rw [ha, hb] at h1
      simp at h1

theorem reducedDeps_short (o : SetOrder Nat) (g : Graph) (u : Ref) (h : (g u).length ≤ 1) :
    reducedDeps o g u = g u := by
  unfold reducedDeps
  cases hl : g u with
  | nil =>
    have : removeCandidates g u = [] := by simp [removeCandidates, hl]
    simp [this, o.list_nil]
  | cons v l =>
    have : l = [] := by
      rw [hl] at h
      simpa using h
    subst this
    have h0 : ∀ i ∈ o.list (removeCandidates g u), i = 0 := by
      intro i hi
      rw [o.mem_iff] at hi
      simp only [removeCandidates, hl, List.flatMap_cons, List.flatMap_nil, List.append_nil,
        List.mem_filterMap] at hi
      obtain ⟨w, _, hw⟩ := hi
      unfold depIndex at hw
      have := (List.findIdx?_eq_some_iff_findIdx_eq.1 hw).1
      simpa using this
    simp only
    by_cases hne : o.list (removeCandidates g u) = []
    · simp [hne]
    · have hlen : (o.list (removeCandidates g u)).length = 1 := by
        have hn := o.nodup (removeCandidates g u)
        cases hc : o.list (removeCandidates g u) with
        | nil => exact absurd hc hne
        | cons a t =>
          rw [hc] at h0 hn
          cases t with
          | nil => rfl
          | cons b t =>
            have h1 := h0 a (by simp)
            have h2 := h0 b (by simp)
            rw [h1, h2] at hn
            simp at hn
      obtain ⟨i, hi⟩ := List.length_eq_one_iff.1 hlen
      have : i = 0 := h0 i (by rw [hi]; simp)
      subst this
      simp [hi]

theorem removeIndirectAll_short (o : SetOrder Nat) (g : Graph) (nodes : List Ref)
    (h : ∀ u ∈ nodes, (g u).length ≤ 1) : removeIndirectAll o nodes g = g := by
  unfold removeIndirectAll
  induction nodes with
  | nil => rfl
  | cons u nodes ih =>
    have hu : removeIndirect o g u = g := by
      unfold removeIndirect
      rw [reducedDeps_short o g u (h u List.mem_cons_self)]
      exact Function.update_eq_self u g
    rw [List.foldl_cons, hu]
    exact ih fun v hv => h v (List.mem_cons_of_mem _ hv)

theorem addIndeps_none (o : SetOrder Ref) (isIndep : Ref → Bool) (root : Ref) (nodes : List Ref)
    (g : Graph) (h : ∀ u, isIndep u = false) : addIndeps o isIndep root nodes g = g := by
  unfold addIndeps
  have h1 : ∀ (u : Ref) (l : List Ref) (g : Graph), (l.foldl (fun g' i =>
      if isIndep i then (if isIndep u then g' else addDep o g' u i) else g') g) = g := by
    intro u l
    induction l with
    | nil => intro g; rfl
    | cons i l ih => intro g; rw [List.foldl_cons, h i]; exact ih g
  induction nodes generalizing g with
  | nil => rfl
  | cons u nodes ih => rw [List.foldl_cons, h1]; exact ih g

/-- Setup never finishes on a graph in which every expression reached from the root has one
dependency, on a cycle. -/
theorem sortExpressions_loop (env : SetupEnv) (isIndep : Ref → Bool) (root : Ref) (deps : Graph)
    (hni : ∀ u, isIndep u = false) (hone : ∀ u, Needs deps root u → (deps u).length ≤ 1)
    (P : Ref → Prop) (hP0 : P root) (hP : ∀ u, P u → ∃ v ∈ deps u, P v) :
    sortExpressions env isIndep root (GState.fresh deps) = .error .recursionError := by
  unfold sortExpressions
  simp only [GState.fresh]
  cases hr : registerNodes deps env.limit root [] with
  | none => rfl
  | some nodes =>
    simp only
    rw [addIndeps_none _ _ _ _ _ hni, removeIndirectAll_short _ _ _ ?_,
      addFwdEdges_loop _ _ P hP _ _ _ hP0]
    intro u hu
    exact hone u ((registerNodes_sub hr u hu).resolve_left (by simp))

end OM
