import Verif.Lemmas.Topo

/-!
# How often the loop of `topological_sort` lists a node, whatever has been sorted before

Nodes visited by an earlier sort keep their counters. Every node below the root is still expanded at least once, and
it is listed exactly once if it has gained a dependent since, otherwise not at all.
-/

namespace OM
open Spec
open Classical

theorem countP_update_le {l : List Ref} (hl : l.Nodup) (p q : Ref → Bool) (v : Ref) (h : ∀ u, u ≠ v → q u = p u) :
    l.countP q ≤ l.countP p + if q v then 1 else 0 := by
  induction l with
  | nil => simp
  | cons a t ih =>
    rw [List.nodup_cons] at hl
    rw [List.countP_cons, List.countP_cons]
    by_cases ha : a = v
    · subst ha
      have : t.countP q = t.countP p := List.countP_congr fun u hu => by
        rw [h u fun e => hl.1 (e ▸ hu)]
      rw [this]
      split <;> split <;> omega
    · rw [h a ha]
      have := ih hl.2
      omega

theorem beq_ite (v w : Ref) : (if (v == w) = true then 1 else 0) = (if w = v then 1 else 0) := by
  by_cases h : w = v
  · simp [h]
  · simp [h, Ne.symm h]

/-- `v₀` are the counters before the sort. -/
structure CountInv (g D : Graph) (r : Ref) (v₀ : Ref → Nat) (univ : List Ref) (s : TopoState) : Prop where
  mono : ∀ v, v₀ v ≤ s.visits v
  listed : ∀ v, s.sorted.count v = if v₀ v < (D v).length ∧ (D v).length ≤ s.visits v then 1 else 0
  flow : ∀ v, (D v).length < s.visits v ∨
    v₀ v + univ.countP (fun u => decide (v₀ u < s.visits u ∧ (D u).length ≤ s.visits u ∧ v ∈ g u)) +
      (if v = r then 1 else 0) ≤ s.visits v + s.stack.count v

theorem countInv_step {g D : Graph} {r : Ref} {v₀ : Ref → Nat} {univ : List Ref} (hu : univ.Nodup) {s s' : TopoState}
    (inv : CountInv g D r v₀ univ s) (h : topoStep g D s = some s') : CountInv g D r v₀ univ s' := by
  unfold topoStep at h
  cases hst : s.stack with
  | nil => simp [hst] at h
  | cons v rest =>
    simp only [hst] at h
    by_cases hc : s.visits v ≤ (D v).length
    · rw [if_pos hc] at h
      simp only [Option.some.injEq, Function.update_self] at h
      subst h
      have hvis : ∀ w, Function.update s.visits v (s.visits v + 1) w = s.visits w + if w = v then 1 else 0 := by
        intro w
        by_cases hw : w = v
        · subst hw; simp
        · simp [hw]
      refine ⟨fun w => ?_, fun w => ?_, fun w => ?_⟩
      · simp only [hvis]
        exact (inv.mono w).trans (Nat.le_add_right _ _)
      · simp only [hvis]
        have hw := inv.listed w
        have hm := inv.mono w
        by_cases hwv : w = v
        · subst hwv
          by_cases he : s.visits w + 1 = (D w).length
          · rw [if_pos he, List.count_append, hw]
            simp only [List.count_singleton_self, if_true]
            rw [if_neg (by omega), if_pos (by omega)]
          · rw [if_neg he, hw]
            simp only [if_true]
            congr 1
            simp only [eq_iff_iff]
            omega
        · have : (if s.visits v + 1 = (D v).length then s.sorted ++ [v] else s.sorted).count w = s.sorted.count w := by
            split
            · rw [List.count_append, List.count_singleton]
              simp [Ne.symm hwv]
            · rfl
          rw [this, hw]
          simp [hwv]
      · simp only [hvis]
        have hf := inv.flow w
        rw [hst, List.count_cons] at hf
        rcases hf with hf | hf
        · left; omega
        right
        have hcount := countP_update_le hu
          (fun u => decide (v₀ u < s.visits u ∧ (D u).length ≤ s.visits u ∧ w ∈ g u))
          (fun u => decide (v₀ u < s.visits u + (if u = v then 1 else 0) ∧
            (D u).length ≤ s.visits u + (if u = v then 1 else 0) ∧ w ∈ g u)) v
          (fun u hne => by simp [hne])
        simp only [if_true] at hcount
        by_cases he : (D v).length ≤ s.visits v + 1
        · rw [if_pos he, List.count_append, List.count_reverse]
          have hg : (if decide (v₀ v < s.visits v + 1 ∧ (D v).length ≤ s.visits v + 1 ∧ w ∈ g v) then 1 else 0)
              ≤ (g v).count w := by
            split
            · next h =>
              simp only [decide_eq_true_eq] at h
              exact List.count_pos_iff.2 h.2.2
            · exact Nat.zero_le _
          have : (if (v == w) = true then 1 else 0) = (if w = v then 1 else 0) := beq_ite v w
          rw [this] at hf
          omega
        · rw [if_neg he]
          rw [if_neg (by simp; omega)] at hcount
          have : (if (v == w) = true then 1 else 0) = (if w = v then 1 else 0) := beq_ite v w
          rw [this] at hf
          omega
    · rw [if_neg hc] at h
      simp only [Option.some.injEq] at h
      subst h
      refine ⟨inv.mono, inv.listed, fun w => ?_⟩
      rcases inv.flow w with h | h
      · exact Or.inl h
      · rw [hst, List.count_cons] at h
        by_cases hw : w = v
        · subst hw
          exact Or.inl (by simp only; omega)
        · right
          have : (v == w) = false := by simp [Ne.symm hw]
          simpa [this] using h

theorem countInv_iter {g D : Graph} {r : Ref} {v₀ : Ref → Nat} {univ : List Ref} (hu : univ.Nodup) (n : Nat)
    {s : TopoState} (inv : CountInv g D r v₀ univ s) : CountInv g D r v₀ univ (topoIter g D n s) := by
  induction n generalizing s with
  | zero => exact inv
  | succ n ih =>
    simp only [topoIter]
    cases h : topoStep g D s with
    | none => exact inv
    | some s' => exact ih (countInv_step hu inv h)

/-- Which nodes below the root are listed. -/
theorem topo_counts {g D d₀ : Graph} {r : Ref} {v₀ : Ref → Nat} (hac : AcyclicFrom g r)
    (hd : ∀ v, Reach g r v → (D v).Nodup) (hd₀ : ∀ v, Reach g r v → (d₀ v).Nodup)
    (hD : ∀ v u, u ∈ D v ↔ u ∈ d₀ v ∨ (Reach g r u ∧ v ∈ g u))
    (hv₀ : ∀ v, Reach g r v → v₀ v = (d₀ v).length)
    (n : Nat) (hempty : (topoIter g D n ⟨[r], v₀, []⟩).stack = [])
    (univ : List Ref) (hun : univ.Nodup) (huniv : ∀ v, Reach g r v → v ∈ univ) (v : Ref) (hv : Reach g r v) :
    (topoIter g D n ⟨[r], v₀, []⟩).sorted.count v = if ∃ u, Reach g r u ∧ v ∈ g u ∧ u ∉ d₀ v then 1 else 0 := by
  have hle : ∀ v, Reach g r v → (d₀ v).length ≤ (D v).length := fun v hv =>
    ((hd₀ v hv).subperm fun u hu => (hD v u).2 (Or.inl hu)).length_le
  have inv : CountInv g D r v₀ univ (topoIter g D n ⟨[r], v₀, []⟩) := by
    refine countInv_iter hun n ⟨fun _ => le_refl _, fun v => ?_, fun v => ?_⟩
    · rw [if_neg (by simp)]
      simp
    · right
      have : univ.countP (fun u => decide (v₀ u < v₀ u ∧ (D u).length ≤ v₀ u ∧ v ∈ g u)) = 0 := by
        rw [List.countP_eq_zero]
        simp
      simp only [this, List.count_singleton]
      have : (if (r == v) = true then 1 else 0) = (if v = r then 1 else 0) := beq_ite r v
      rw [this]
      omega
  set s := topoIter g D n ⟨[r], v₀, []⟩
  -- every node below the root is expanded
  have hexp : ∀ k v, (univ.filter fun a => decide (Needs g a v)).length < k → Reach g r v →
      v₀ v < s.visits v ∧ (D v).length ≤ s.visits v := by
    intro k
    induction k with
    | zero => intro v h; omega
    | succ k ih =>
      intro v hk hv
      have hup : ∀ u, Reach g r u → v ∈ g u → v₀ u < s.visits u ∧ (D u).length ≤ s.visits u := by
        intro u hu huv
        refine ih u ?_ hu
        have hsub : (univ.filter fun a => decide (Needs g a u)).Sublist
            (univ.filter fun a => decide (Needs g a v)) :=
          List.monotone_filter_right _ fun a ha =>
            decide_eq_true (Relation.TransGen.tail (of_decide_eq_true ha) huv)
        rcases Nat.lt_or_ge (univ.filter fun a => decide (Needs g a u)).length
          (univ.filter fun a => decide (Needs g a v)).length with h | h
        · omega
        · have heq := hsub.eq_of_length_le h
          have hm : u ∈ univ.filter fun a => decide (Needs g a v) := by
            rw [List.mem_filter]
            exact ⟨huniv u hu, decide_eq_true (Relation.TransGen.single huv)⟩
          rw [← heq, List.mem_filter] at hm
          exact absurd (of_decide_eq_true hm.2) (hac u hu)
      have h1 := hv₀ v hv
      have h2 := hle v hv
      rcases inv.flow v with hf | hf
      · omega
      · rw [hempty, List.count_nil] at hf
        -- the dependents below the root
        have hsub : (D v) ⊆ d₀ v ++ univ.filter (fun u => decide (v₀ u < s.visits u ∧ (D u).length ≤ s.visits u ∧ v ∈ g u)) := by
          intro u hu
          rw [List.mem_append]
          rcases (hD v u).1 hu with h | ⟨h3, h4⟩
          · exact Or.inl h
          · refine Or.inr (List.mem_filter.2 ⟨huniv u h3, decide_eq_true ?_⟩)
            exact ⟨(hup u h3 h4).1, (hup u h3 h4).2, h4⟩
        have hlen := ((hd v hv).subperm hsub).length_le
        rw [List.length_append, ← List.countP_eq_length_filter] at hlen
        refine ⟨?_, by omega⟩
        by_cases hvr : v = r
        · rw [if_pos hvr] at hf
          omega
        · have hn : Needs g r v := by
            rcases Relation.reflTransGen_iff_eq_or_transGen.1 hv with h | h
            · exact absurd h hvr
            · exact h
          obtain ⟨u, hu, huv⟩ := Relation.TransGen.tail'_iff.1 hn
          have hpos : 0 < univ.countP
              (fun u => decide (v₀ u < s.visits u ∧ (D u).length ≤ s.visits u ∧ v ∈ g u)) := by
            rw [List.countP_pos_iff]
            exact ⟨u, huniv u hu, decide_eq_true ⟨(hup u hu huv).1, (hup u hu huv).2, huv⟩⟩
          omega
  have h1 := hexp _ v (Nat.lt_succ_self _) hv
  rw [inv.listed v, hv₀ v hv]
  congr 1
  simp only [eq_iff_iff]
  constructor
  · rintro ⟨h2, -⟩
    by_contra hc
    push Not at hc
    have hsub : D v ⊆ d₀ v := by
      intro u hu
      rcases (hD v u).1 hu with h | ⟨h3, h4⟩
      · exact h
      · exact hc u h3 h4
    have := ((hd v hv).subperm hsub).length_le
    omega
  · rintro ⟨u, h2, h3, h4⟩
    refine ⟨?_, h1.2⟩
    have hnd : (u :: d₀ v).Nodup := List.nodup_cons.2 ⟨h4, hd₀ v hv⟩
    have hsub : (u :: d₀ v) ⊆ D v := by
      intro w hw
      rcases List.mem_cons.1 hw with rfl | hw
      · exact (hD v w).2 (Or.inr ⟨h2, h3⟩)
      · exact (hD v w).2 (Or.inl hw)
    have := (hnd.subperm hsub).length_le
    exact this

end OM
