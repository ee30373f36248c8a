import Verif.Lemmas.Pipeline
import Verif.Lemmas.SharedCount

/-!
# Sorting a graph some of whose nodes were sorted before

`topological_sort` of a second root, when nodes that it reaches have been counted as visited by the sort of another
root. A part of the graph closed under dependents is sorted as if nothing else was there.
-/

namespace OM
open Spec
open Classical

section Proj
variable {g D : Graph} {r : Ref} {W : Ref → Prop} {v₀ : Ref → Nat} {D' : Graph}

/-- The part of a graph. -/
noncomputable def part (W : Ref → Prop) (g : Graph) : Graph := fun u => (g u).filter fun v => decide (W v)

/-- The part of a state of the loop, visits counted from `v₀`. -/
noncomputable def partState (W : Ref → Prop) (v₀ : Ref → Nat) (s : TopoState) : TopoState :=
  ⟨s.stack.filter fun v => decide (W v), fun v => if W v then s.visits v - v₀ v else 0,
    s.sorted.filter fun v => decide (W v)⟩

theorem part_step (hup : ∀ u v, Reach g r u → v ∈ g u → W v → W u)
    (hlen : ∀ v, W v → (D v).length = v₀ v + (D' v).length) {s s' : TopoState}
    (hs : ∀ u ∈ s.stack, Reach g r u) (hv : ∀ v, W v → v₀ v ≤ s.visits v) (h : topoStep g D s = some s') :
    (partState W v₀ s' = partState W v₀ s ∨ topoStep (part W g) D' (partState W v₀ s) = some (partState W v₀ s')) ∧
    (∀ u ∈ s'.stack, Reach g r u) ∧ ∀ v, W v → v₀ v ≤ s'.visits v := by
  unfold topoStep at h
  cases hst : s.stack with
  | nil => simp [hst] at h
  | cons v rest =>
    simp only [hst] at h
    have hrv : Reach g r v := hs v (by rw [hst]; simp)
    have hrest : ∀ u ∈ rest, Reach g r u := fun u hu => hs u (by rw [hst]; simp [hu])
    by_cases hc : s.visits v ≤ (D v).length
    · rw [if_pos hc] at h
      cases h
      refine ⟨?_, ?_, ?_⟩
      · by_cases hw : W v
        · right
          have h1 := hlen v hw
          have h2 := hv v hw
          simp only [partState, topoStep, hst, List.filter_cons_of_pos (a := v) (p := fun v => decide (W v)) (by simpa using hw)]
          rw [if_pos hw, if_pos (show s.visits v - v₀ v ≤ (D' v).length by omega)]
          simp only [Function.update_self, Option.some.injEq, TopoState.mk.injEq]
          have e1 : ((D' v).length ≤ s.visits v - v₀ v + 1) ↔ ((D v).length ≤ s.visits v + 1) := by omega
          have e2 : (s.visits v - v₀ v + 1 = (D' v).length) ↔ (s.visits v + 1 = (D v).length) := by omega
          refine ⟨?_, ?_, ?_⟩
          · by_cases he : (D v).length ≤ s.visits v + 1
            · rw [if_pos (e1.2 he), if_pos he]
              simp [part]
            · rw [if_neg (fun h => he (e1.1 h)), if_neg he]
          · funext w
            by_cases hwv : w = v
            · subst hwv
              simp only [Function.update_self, if_pos hw]
              omega
            · simp only [Function.update_of_ne hwv]
          · by_cases he : s.visits v + 1 = (D v).length
            · rw [if_pos (e2.2 he), if_pos he]
              simp [hw]
            · rw [if_neg (fun h => he (e2.1 h)), if_neg he]
        · left
          have hpush : ∀ u ∈ g v, ¬ W u := fun u hu hwu => hw (hup v u hrv hu hwu)
          simp only [partState, TopoState.mk.injEq, hst]
          refine ⟨?_, ?_, ?_⟩
          · rw [List.filter_cons_of_neg (by simpa using hw)]
            split
            · rw [List.filter_append, List.filter_reverse, List.filter_eq_nil_iff.2 (by simpa using hpush)]
              simp
            · rfl
          · funext w
            by_cases hww : W w
            · rw [if_pos hww, if_pos hww, Function.update_of_ne (fun e : w = v => hw (e ▸ hww))]
            · rw [if_neg hww, if_neg hww]
          · split
            · simp [hw]
            · rfl
      · intro u hu
        simp only at hu
        split at hu
        · rcases List.mem_append.1 hu with h | h
          · exact hrv.tail (List.mem_reverse.1 h)
          · exact hrest u h
        · exact hrest u hu
      · intro w hw
        have := hv w hw
        by_cases hwv : w = v
        · subst hwv
          simp only [Function.update_self]
          omega
        · simpa only [Function.update_of_ne hwv] using this
    · rw [if_neg hc] at h
      cases h
      refine ⟨?_, hrest, hv⟩
      by_cases hw : W v
      · right
        have h1 := hlen v hw
        simp only [partState, topoStep, hst, List.filter_cons_of_pos (a := v) (p := fun v => decide (W v)) (by simpa using hw)]
        rw [if_pos hw, if_neg (show ¬ s.visits v - v₀ v ≤ (D' v).length by omega)]
      · left
        simp only [partState, TopoState.mk.injEq, hst, and_true]
        rw [List.filter_cons_of_neg (by simpa using hw)]

theorem part_iter (hup : ∀ u v, Reach g r u → v ∈ g u → W v → W u)
    (hlen : ∀ v, W v → (D v).length = v₀ v + (D' v).length) (n : Nat) {s : TopoState}
    (hs : ∀ u ∈ s.stack, Reach g r u) (hv : ∀ v, W v → v₀ v ≤ s.visits v) :
    ∃ m, partState W v₀ (topoIter g D n s) = topoIter (part W g) D' m (partState W v₀ s) ∧
      ∀ v, W v → v₀ v ≤ (topoIter g D n s).visits v := by
  induction n generalizing s with
  | zero => exact ⟨0, rfl, hv⟩
  | succ n ih =>
    simp only [topoIter]
    cases h : topoStep g D s with
    | none => exact ⟨0, rfl, hv⟩
    | some s' =>
      obtain ⟨h1, h2, h3⟩ := part_step hup hlen hs hv h
      obtain ⟨m, hm, hm'⟩ := ih h2 h3
      rcases h1 with h1 | h1
      · exact ⟨m, by rw [hm, h1], hm'⟩
      · exact ⟨m + 1, by simp only [topoIter, h1]; exact hm, hm'⟩

/-- Nodes visited often enough before are not sorted again, and only nodes that are reached are visited. -/
theorem iter_stale (n : Nat) {s : TopoState} (hs : ∀ u ∈ s.stack, Reach g r u) :
    (∀ v, (D v).length ≤ s.visits v → v ∉ s.sorted →
      v ∉ (topoIter g D n s).sorted ∧ (D v).length ≤ (topoIter g D n s).visits v) ∧
    (∀ v, ¬ Reach g r v → (topoIter g D n s).visits v = s.visits v) := by
  induction n generalizing s with
  | zero => exact ⟨fun v h1 h2 => ⟨h2, h1⟩, fun _ _ => rfl⟩
  | succ n ih =>
    simp only [topoIter]
    cases h : topoStep g D s with
    | none => exact ⟨fun v h1 h2 => ⟨h2, h1⟩, fun _ _ => rfl⟩
    | some s' =>
      have h1 := (part_step (W := fun _ => False) (v₀ := fun _ => 0) (D' := D) (fun _ _ _ _ h => h)
        (fun _ h => h.elim) hs (fun _ h => h.elim) h).2.1
      obtain ⟨i1, i2⟩ := ih h1
      unfold topoStep at h
      cases hst : s.stack with
      | nil => simp [hst] at h
      | cons v rest =>
        simp only [hst] at h
        have hrv : Reach g r v := hs v (by rw [hst]; simp)
        split at h
        · cases h
          refine ⟨fun w hw1 hw2 => i1 w ?_ ?_, fun w hw => (i2 w hw).trans ?_⟩
          · by_cases hwv : w = v
            · subst hwv
              simp only [Function.update_self]
              omega
            · simpa only [Function.update_of_ne hwv] using hw1
          · simp only [Function.update_self]
            split
            · rename_i he
              rw [List.mem_append, not_or]
              refine ⟨hw2, ?_⟩
              rw [List.mem_singleton]
              rintro rfl
              omega
            · exact hw2
          · simp only
            rw [Function.update_of_ne]
            rintro rfl
            exact hw hrv
        · cases h
          exact ⟨fun w hw1 hw2 => i1 w hw1 hw2, fun w hw => i2 w hw⟩

end Proj

/-- Everything sorted is reached and has dependents. -/
theorem iter_sorted {g D : Graph} {r : Ref} (n : Nat) {s : TopoState} (hs : ∀ u ∈ s.stack, Reach g r u)
    (h0 : ∀ u ∈ s.sorted, Reach g r u ∧ D u ≠ []) :
    ∀ u ∈ (topoIter g D n s).sorted, Reach g r u ∧ D u ≠ [] := by
  induction n generalizing s with
  | zero => exact h0
  | succ n ih =>
    simp only [topoIter]
    cases h : topoStep g D s with
    | none => exact h0
    | some s' =>
      have h1 := (part_step (W := fun _ => False) (v₀ := fun _ => 0) (D' := D) (fun _ _ _ _ h => h)
        (fun _ h => h.elim) hs (fun _ h => h.elim) h).2.1
      apply ih h1
      unfold topoStep at h
      cases hst : s.stack with
      | nil => simp [hst] at h
      | cons v rest =>
        simp only [hst] at h
        have hrv : Reach g r v := hs v (by rw [hst]; simp)
        split at h
        · cases h
          simp only [Function.update_self]
          split
          · rename_i he
            intro u hu
            rcases List.mem_append.1 hu with hu | hu
            · exact h0 u hu
            · rw [List.mem_singleton] at hu
              subst hu
              refine ⟨hrv, fun e => ?_⟩
              rw [e, List.length_nil] at he
              omega
          · exact h0
        · cases h
          exact h0

theorem before_of_filter {α : Type} {p : α → Bool} {l : List α} {a b : α} (h : Before (l.filter p) a b) :
    Before l a b := by
  obtain ⟨x, y, z, h⟩ := h
  obtain ⟨l1, l2, rfl, _, h2⟩ := List.filter_eq_append_iff.1 h
  obtain ⟨l3, l4, rfl, _, _, h3⟩ := List.filter_eq_cons_iff.1 h2
  obtain ⟨l5, l6, rfl, _, h4⟩ := List.filter_eq_append_iff.1 h3
  obtain ⟨l7, l8, rfl, _, _, _⟩ := List.filter_eq_cons_iff.1 h4
  exact ⟨l1 ++ l3, l5 ++ l7, l8, by simp⟩

/-- The sort of a root, some nodes below which have been visited before as often as they had dependents: a part `W`
of the graph, closed under dependents and whose dependents are new, is sorted properly. -/
theorem topo_part {g D d₀ : Graph} {r : Ref} {v₀ : Ref → Nat} {W : Ref → Prop} (hac : AcyclicFrom g r)
    (hg : ∀ u, Reach g r u → (g u).Nodup) (hd : ∀ v, Reach g r v → (D v).Nodup)
    (hd₀ : ∀ v, Reach g r v → (d₀ v).Nodup)
    (hD : ∀ v u, u ∈ D v ↔ u ∈ d₀ v ∨ (Reach g r u ∧ v ∈ g u))
    (hv₀ : ∀ v, Reach g r v → v₀ v = (d₀ v).length) (hr : d₀ r = []) (hWr : W r)
    (hup : ∀ u v, Reach g r u → v ∈ g u → W v → W u) (hnew : ∀ u v, Reach g r u → v ∈ g u → W v → u ∉ d₀ v)
    (n : Nat) (hempty : (topoIter g D n ⟨[r], v₀, []⟩).stack = [])
    (univ : List Ref) (huniv : ∀ v, Reach g r v → v ∈ univ) :
    let s := topoIter g D n ⟨[r], v₀, []⟩
    (∀ v, W v → Needs g r v → s.sorted.count v = 1) ∧
    (∀ u v, W v → Needs g r u → Needs g u v → Before s.sorted u v) ∧
    (∀ v ∈ s.sorted, Needs g r v) ∧
    (∀ v, Needs g r v → (∀ u, Reach g r u → v ∈ g u → u ∈ d₀ v) → v ∉ s.sorted) ∧
    (∀ v, W v → Needs g r v → s.visits v = (D v).length) ∧
    (∀ v, ¬ Reach g r v → s.visits v = v₀ v) ∧ s.visits r = 1 := by
  set W' : Ref → Prop := fun v => Reach g r v ∧ W v with hW'
  set D' : Graph := fun v => if W' v then (D v).filter fun u => decide (u ∉ d₀ v) else [] with hD'
  set g' := part W' g with hg'
  have hrr : Reach g r r := Relation.ReflTransGen.refl
  have hup' : ∀ u v, Reach g r u → v ∈ g u → W' v → W' u := fun u v h1 h2 h3 => ⟨h1, hup u v h1 h2 h3.2⟩
  have hlen : ∀ v, W' v → (D v).length = v₀ v + (D' v).length := by
    intro v hv
    simp only [hD', if_pos hv, hv₀ v hv.1]
    rw [List.length_eq_length_filter_add (l := D v) fun u => decide (u ∈ d₀ v)]
    have h1 : ((D v).filter fun u => decide (u ∈ d₀ v)).Perm (d₀ v) := by
      rw [List.perm_ext_iff_of_nodup ((hd v hv.1).filter _) (hd₀ v hv.1)]
      intro a
      simp only [List.mem_filter, decide_eq_true_eq, and_iff_right_iff_imp]
      exact fun h => (hD v a).2 (Or.inl h)
    rw [h1.length_eq]
    simp
  have hmg : ∀ u v, v ∈ g' u ↔ v ∈ g u ∧ W' v := by
    intro u v
    simp [hg', part, List.mem_filter]
  have hreach : ∀ u, Reach g' r u ↔ W' u := by
    intro u
    constructor
    · intro h
      refine ⟨Relation.ReflTransGen.mono (fun a b hab => ((hmg a b).1 hab).1) _ _ h, ?_⟩
      rcases Relation.ReflTransGen.cases_tail h with h | ⟨c, _, h⟩
      · exact h ▸ hWr
      · exact ((hmg c u).1 h).2.2
    · rintro ⟨h1, h2⟩
      induction h1 with
      | refl => exact Relation.ReflTransGen.refl
      | tail ha hb ih =>
        rename_i b c
        exact (ih (hup b c ha hb h2)).tail ((hmg b c).2 ⟨hb, ha.tail hb, h2⟩)
  have hneeds : ∀ u v, Reach g r u → W v → Needs g u v → Needs g' u v := by
    intro u v hu hv h
    induction h with
    | single h => exact Relation.TransGen.single ((hmg _ _).2 ⟨h, hu.tail h, hv⟩)
    | tail ha hb ih =>
      rename_i b c
      have hrb : Reach g r b := Relation.ReflTransGen.trans hu ha.to_reflTransGen
      exact (ih (hup b c hrb hb hv)).tail ((hmg b c).2 ⟨hb, hrb.tail hb, hv⟩)
  have hDm : ∀ v u, u ∈ D' v ↔ W' v ∧ Reach g r u ∧ v ∈ g u := by
    intro v u
    show u ∈ (if W' v then (D v).filter fun u => decide (u ∉ d₀ v) else []) ↔ _
    by_cases hv : W' v
    · rw [if_pos hv, List.mem_filter, decide_eq_true_eq, hD]
      simp only [hv, true_and]
      constructor
      · rintro ⟨h1 | h1, h2⟩
        · exact absurd h1 h2
        · exact h1
      · exact fun h => ⟨Or.inr h, hnew u v h.1 h.2 hv.2⟩
    · simp [if_neg hv, hv]
  have ok : TopoOk g' D' r := by
    refine ⟨?_, ?_, ?_, ?_⟩
    · intro u hu
      exact (hg u ((hreach u).1 hu).1).filter _
    · intro v
      simp only [hD']
      split
      · rename_i hv
        exact (hd v hv.1).filter _
      · simp
    · intro v u
      rw [hDm, hreach, hmg]
      exact ⟨fun h => ⟨hup' u v h.2.1 h.2.2 h.1, h.2.2, h.1⟩, fun h => ⟨h.2.2, h.1.1, h.2.1⟩⟩
    · rw [List.eq_nil_iff_forall_not_mem]
      intro u hu
      obtain ⟨_, h1, h2⟩ := (hDm r u).1 hu
      exact hac r hrr (Relation.TransGen.tail' h1 h2)
  set s := topoIter g D n ⟨[r], v₀, []⟩ with hs
  have hstart : partState W' v₀ ⟨[r], v₀, []⟩ = ⟨[r], fun _ => 0, []⟩ := by
    simp only [partState, List.filter_nil, Nat.sub_self, ite_self, TopoState.mk.injEq, and_true]
    rw [List.filter_cons_of_pos (by simpa using ⟨hrr, hWr⟩), List.filter_nil]
  obtain ⟨m, hm, hvis⟩ := part_iter (D' := D') hup' hlen n (s := ⟨[r], v₀, []⟩)
    (by simpa using hrr) (fun _ _ => le_rfl)
  rw [hstart, ← hs] at hm
  have hinv : TopoInv g' D' r (partState W' v₀ s) := by
    cases m with
    | zero =>
      simp only [topoIter, partState, hempty, TopoState.mk.injEq] at hm
      simp at hm
    | succ m =>
      obtain ⟨s1, h1, h2⟩ := topoInv_first ok (fun _ => 0) (fun _ => rfl)
      have h3 : topoIter g' D' (m + 1) ⟨[r], fun _ => 0, []⟩ = topoIter g' D' m s1 := by
        rw [topoIter, h1]
      rw [hm, ← hg', h3]
      exact topoInv_iter ok _ h2
  have hempty' : (partState W' v₀ s).stack = [] := by simp [partState, hempty]
  have hnc : ∀ v, ¬ ∃ c, Reach g' r c ∧ Needs g' c c ∧ Reach g' c v := by
    rintro v ⟨c, h1, h2, _⟩
    exact hac c ((hreach c).1 h1).1 (needs_mono (fun a b h => Relation.TransGen.single ((hmg a b).1 h).1) h2)
  have hmem : ∀ v, W v → Needs g r v → v ∈ (partState W' v₀ s).sorted := by
    intro v hv h
    rw [topo_mem_iff ok hinv hempty' univ (fun v h => huniv v ((hreach v).1 h).1) v]
    exact ⟨hneeds r v hrr hv h, hnc v⟩
  have hsort := iter_sorted (D := D) n (s := ⟨[r], v₀, []⟩) (by simpa using hrr) (by simp)
  rw [← hs] at hsort
  have hDr : D r = [] := by
    rw [List.eq_nil_iff_forall_not_mem]
    intro u hu
    rcases (hD r u).1 hu with h | ⟨h1, h2⟩
    · simp [hr] at h
    · exact hac r hrr (Relation.TransGen.tail' h1 h2)
  obtain ⟨st1, st2⟩ := iter_stale (D := D) n (s := ⟨[r], v₀, []⟩) (r := r) (g := g) (by simpa using hrr)
  refine ⟨?_, ?_, ?_, ?_, ?_, st2, ?_⟩
  · intro v hv h
    have h1 := List.count_eq_one_of_mem (List.nodup_cons.1 hinv.nodup).2 (hmem v hv h)
    simp only [partState] at h1
    rwa [List.count_filter (by simpa using ⟨h.to_reflTransGen, hv⟩)] at h1
  · intro u v hv hu huv
    have hru : Reach g r u := hu.to_reflTransGen
    have hrv : Needs g r v := hu.trans huv
    have huv' := hneeds u v hru hv huv
    have hwu : W u := by
      obtain ⟨c, h1, h2⟩ := Relation.TransGen.head'_iff.1 huv'
      have h3 := (hreach c).1
      have h4 := (hmg u c).1 h1
      exact hup u c hru h4.1 h4.2.2
    have hidx := hinv.up ok ((hreach u).2 ⟨hru, hwu⟩) huv' (List.mem_cons_of_mem _ (hmem v hv hrv))
    have hb := before_of_idxOf_lt (List.mem_cons_of_mem _ (hmem v hv hrv)) hidx.2
    have hb' := Spec.Before.tail_of_ne hb (by
      rintro rfl
      exact (List.nodup_cons.1 hinv.nodup).1 (hmem u hwu hu))
    simp only [partState] at hb'
    exact before_of_filter hb'
  · intro v hv
    obtain ⟨h1, h2⟩ := hsort v hv
    rcases Relation.reflTransGen_iff_eq_or_transGen.1 h1 with h | h
    · exact absurd hDr (h ▸ h2)
    · exact h
  · intro v hv hall
    refine (st1 v ?_ (by simp)).1
    show (D v).length ≤ v₀ v
    rw [hv₀ v hv.to_reflTransGen]
    apply List.Subperm.length_le
    apply List.Nodup.subperm (hd v hv.to_reflTransGen)
    intro u hu
    rcases (hD v u).1 hu with h | ⟨h1, h2⟩
    · exact h
    · exact hall u h1 h2
  · intro v hv h
    have hw : W' v := ⟨h.to_reflTransGen, hv⟩
    have hvr : v ≠ r := by
      rintro rfl
      exact hac v hrr h
    have h1 := ((hinv.sorted_iff v hvr).1 (hmem v hv h)).1
    simp only [partState, if_pos hw] at h1
    have h2 := hlen v hw
    have h3 := hvis v hw
    rw [← hs] at h3
    omega
  · have h1 := hinv.root_visits
    simp only [partState, if_pos (show W' r from ⟨hrr, hWr⟩)] at h1
    rw [hv₀ r hrr, hr, List.length_nil] at h1
    omega

theorem sortAll_not_mem (cost : Ref → Nat) (reverse : Bool) (nodes : List Ref) (g : Graph) (a : Ref)
    (h : a ∉ nodes) : sortAll cost reverse nodes g a = g a := by
  unfold sortAll
  induction nodes generalizing g with
  | nil => rfl
  | cons u t ih =>
    rw [List.foldl_cons, ih _ fun h' => h (List.mem_cons_of_mem _ h')]
    exact Function.update_of_ne (fun e => h (by simp [e])) _ _

/-- Setup of a group some of whose nodes belong to groups that were set up before: `d₀` are the dependents these
groups left, `v₀` the visits they counted. -/
theorem sortExpressions_shared_counts (env : SetupEnv) (isIndep : Ref → Bool) (root : Ref) (deps d₀ : Graph)
    (v₀ cost₀ : Ref → Nat) (n : Nat)
    (hord : ∀ u, Needs deps root u → OrderOk env.oi deps ((deps root).filter isIndep).length u)
    (hchain : ChainsLt deps root n) (hlim : n < env.limit)
    (hnd : ∀ u, Reach deps root u → (deps u).Nodup)
    (hleaf : ∀ i, Needs deps root i → isIndep i = true → deps i = [])
    (hd₀ : ∀ v, (d₀ v).Nodup) (hv₀ : ∀ v, Reach deps root v → v₀ v = (d₀ v).length) (hr₀ : d₀ root = []) :
    ∃ st l g1, sortExpressions env isIndep root ⟨deps, d₀, v₀, cost₀, []⟩ = .ok (st, l) ∧
      (∀ v, Reach deps root v →
        l.count v = if ∃ u, Reach deps root u ∧ v ∈ st.deps u ∧ u ∉ d₀ v then 1 else 0) ∧
      WithIndeps deps isIndep root g1 ∧ (∀ v ∈ l, Needs deps root v) ∧
      (∀ W : Ref → Prop, W root → (∀ u v, Reach deps root u → v ∈ g1 u → W v → W u) →
        (∀ u v, Reach deps root u → v ∈ g1 u → W v → u ∉ d₀ v) →
        (∀ v, W v → Needs deps root v → l.count v = 1 ∧ st.visits v = (st.dependents v).length) ∧
        (∀ u v, W v → Needs deps root u → Needs g1 u v → Before l u v)) ∧
      (∀ v, Needs deps root v → (∀ u, Reach deps root u → v ∈ g1 u → u ∈ d₀ v) → v ∉ l) ∧
      (∀ v, ¬ Reach deps root v → st.visits v = v₀ v) ∧ st.visits root = 1 ∧ st.dependents root = [] ∧
      (∀ v, (st.dependents v).Nodup) ∧
      (∀ v u, u ∈ st.dependents v ↔ u ∈ d₀ v ∨ (Reach deps root u ∧ v ∈ st.deps u)) ∧
      (∀ a b, b ∈ st.deps a → b ∈ g1 a) ∧ (∀ a b, Needs st.deps a b ↔ Needs g1 a b) ∧
      (∀ v, ¬ Needs deps root v → st.deps v = deps v) ∧ (∀ v, Needs g1 root v ↔ Needs deps root v) := by
  unfold sortExpressions
  simp only
  obtain ⟨nodes, hreg, hnodes, hmem⟩ := registerNodes_nil (hchain.mono hlim.le)
  simp only [hreg]
  have hac0 := hchain.acyclic
  have hroot : root ∉ nodes := fun h => hac0 root Relation.ReflTransGen.refl ((hmem root).1 h)
  obtain ⟨e1, e2, e3⟩ := addIndeps_spec env.ov isIndep root nodes deps hroot
  set g1 := addIndeps env.ov isIndep root nodes deps with hg1
  have hw : WithIndeps deps isIndep root g1 := by
    intro a b
    rw [e1, hmem]
  have hc1 : ChainsLt g1 root (n + 1) := chainsLt_withIndeps hw (fun i hi => hleaf i (.single hi)) hchain
  have hac1 := hc1.acyclic
  -- reachability from the root is the same in `deps` and `g1`
  have hneeds01 : ∀ v, Needs g1 root v ↔ Needs deps root v := by
    intro v
    constructor
    · intro h
      induction h with
      | single h =>
        rcases (hw _ _).1 h with h' | ⟨h1, _⟩
        · exact Relation.TransGen.single h'
        · exact absurd h1 (hac0 root Relation.ReflTransGen.refl)
      | tail _ h ih =>
        rcases (hw _ _).1 h with h' | ⟨_, _, _, h4⟩
        · exact ih.tail h'
        · exact Relation.TransGen.single h4
    · exact needs_mono fun a b h => Relation.TransGen.single ((hw a b).2 (Or.inl h))
  have hreach01 : ∀ v, Reach g1 root v ↔ Reach deps root v := by
    intro v
    unfold Reach
    rw [Relation.reflTransGen_iff_eq_or_transGen, Relation.reflTransGen_iff_eq_or_transGen]
    exact or_congr_right (hneeds01 v)
  have hnd1 : ∀ u, Reach g1 root u → (g1 u).Nodup := fun u hu => e2 u (hnd u ((hreach01 u).1 hu))
  have hreachnodes : ∀ u ∈ nodes, Reach g1 root u := fun u hu =>
    (hreach01 u).2 ((hmem u).1 hu).to_reflTransGen
  obtain ⟨r1, r2, r3⟩ := removeIndirectAll_indeps env.oi isIndep root deps g1 nodes hmem e1 hord
    (hnd root .refl) hleaf
    (fun u hu => hnd1 u (hreachnodes u hu))
    (fun u hu x hx => hac1 x (Relation.ReflTransGen.trans (hreachnodes u hu) hx))
  set g2 := removeIndirectAll env.oi nodes g1 with hg2
  have hreach12 := reach_iff_of_needs_iff r1
  have hc2 : ChainsLt g2 root (n + 1) := hc1.of_edge_imp fun a b h => (r2 a).subset h
  obtain ⟨D, hD, hDm, hDn⟩ := addFwdEdges_spec env.ov (d := d₀) (hc2.mono hlim)
  simp only [hD]
  have hzero : ¬ (nodes.any (fun v => (D v).length == 0)) = true := by
    simp only [List.any_eq_true, not_exists, not_and]
    intro v hv hlen
    have hnv : Needs g2 root v := (r1 root v).2 ((hneeds01 v).2 ((hmem v).1 hv))
    obtain ⟨u, hru, huv⟩ := Relation.TransGen.tail'_iff.1 hnv
    have : u ∈ D v := (hDm v u).2 (Or.inr ⟨hru, huv⟩)
    simp only [beq_iff_eq, List.length_eq_zero_iff] at hlen
    simp [hlen] at this
  simp only [hzero, Bool.false_eq_true, if_false]
  obtain ⟨cost, hcost⟩ := dagCost_isSome cost₀ (hc2.mono hlim)
  simp only [hcost]
  have hperm := sortAll_perm cost env.reverse nodes g2
  set g3 := sortAll cost env.reverse nodes g2 with hg3'
  have hedge23 : ∀ a b, Edge g3 a b ↔ Edge g2 a b := fun a b => (hperm a).mem_iff
  have hneeds23 := needs_congr hedge23
  have hreach23 := reach_iff_of_needs_iff hneeds23
  have hreach30 : ∀ v, Reach g3 root v ↔ Reach deps root v := fun v =>
    (hreach23 root v).trans ((hreach12 root v).trans (hreach01 v))
  have hac3 : AcyclicFrom g3 root := by
    intro v hv hvv
    exact hac1 v ((hreach12 root v).1 ((hreach23 root v).1 hv))
      ((r1 v v).1 ((hneeds23 v v).1 hvv))
  have huniv : ∀ v, Reach g3 root v → v ∈ root :: nodes := by
    intro v hv
    rw [hreach30] at hv
    rcases Relation.reflTransGen_iff_eq_or_transGen.1 hv with h | h
    · simp [h]
    · exact List.mem_cons_of_mem _ ((hmem v).2 h)
  have hclosed : ∀ v ∈ root :: nodes, ∀ w ∈ g3 v, w ∈ root :: nodes := by
    intro v hv w hw'
    apply huniv
    refine Relation.ReflTransGen.tail ((hreach30 v).2 ?_) hw'
    rcases List.mem_cons.1 hv with h | h
    · exact h ▸ Relation.ReflTransGen.refl
    · exact ((hmem v).1 h).to_reflTransGen
  have hund : (root :: nodes).Nodup := List.nodup_cons.2 ⟨hroot, hnodes⟩
  have hempty := topoIter_terminates g3 D (root :: nodes) hund hclosed
    (topoBound g3 (root :: nodes)) ⟨[root], v₀, []⟩ (by simp) (by
      have := topoPotential_sum_le g3 D (root :: nodes) v₀
      unfold topoMeasure topoBound
      simp only [List.length_singleton]
      omega)
  have hrn : root ∉ nodes := hroot
  have hdm : ∀ v u, u ∈ D v ↔ u ∈ d₀ v ∨ (Reach g3 root u ∧ v ∈ g3 u) := by
    intro v u
    rw [hDm, hreach23]
    exact or_congr_right (and_congr_right fun _ => (hedge23 u v).symm)
  have hsub : ∀ a b, b ∈ g3 a → b ∈ g1 a := fun a b hb => (r2 a).subset ((hedge23 a b).1 hb)
  have hg3 : ∀ u, Reach g3 root u → (g3 u).Nodup := by
    intro u hu
    rw [(hperm u).nodup_iff]
    exact (hnd1 u ((hreach12 root u).1 ((hreach23 root u).1 hu))).sublist (r2 u)
  have hneeds31 : ∀ a b, Needs g3 a b ↔ Needs g1 a b := fun a b => (hneeds23 a b).trans (r1 a b)
  have hneeds30 : ∀ v, Needs g3 root v ↔ Needs deps root v := fun v => (hneeds31 root v).trans (hneeds01 v)
  have hDroot : D root = [] := by
    rw [List.eq_nil_iff_forall_not_mem]
    intro u hu
    rcases (hdm root u).1 hu with h | ⟨h1, h2⟩
    · simp [hr₀] at h
    · exact hac3 root Relation.ReflTransGen.refl (Relation.TransGen.tail' h1 h2)
  have key := fun (W : Ref → Prop) h1 h2 h3 => topo_part (W := W) hac3 hg3 (fun v _ => hDn v (hd₀ v)) (fun v _ => hd₀ v)
    hdm (fun v h => hv₀ v ((hreach30 v).1 h)) hr₀ h1 h2 h3 _ hempty (root :: nodes) huniv
  obtain ⟨-, -, k3, k4, -, k6, k7⟩ := key (fun v => v = root) rfl
    (fun u v hu hv e => absurd (Relation.TransGen.tail' (e ▸ hu) hv) (hac3 v (e ▸ Relation.ReflTransGen.refl)))
    (fun u v hu hv e => absurd (Relation.TransGen.tail' (e ▸ hu) hv) (hac3 v (e ▸ Relation.ReflTransGen.refl)))
  refine ⟨_, _, g1, rfl, ?_, hw, fun v hv => (hneeds30 v).1 (k3 v hv), ?_, ?_, fun v hv => k6 v fun h => hv ((hreach30 v).1 h),
    k7, hDroot, fun v => hDn v (hd₀ v), ?_, hsub, hneeds31, ?_, hneeds01⟩
  · intro v hv
    have h := topo_counts hac3 (fun v _ => hDn v (hd₀ v)) (fun v _ => hd₀ v) hdm
      (fun v h => hv₀ v ((hreach30 v).1 h)) _ hempty (root :: nodes) hund huniv v ((hreach30 v).2 hv)
    simp only [hreach30] at h
    exact h
  · intro W h1 h2 h3
    obtain ⟨q1, q2, -, -, q5, -, -⟩ := key W h1 (fun u v hu hv => h2 u v ((hreach30 u).1 hu) (hsub u v hv))
      (fun u v hu hv => h3 u v ((hreach30 u).1 hu) (hsub u v hv))
    refine ⟨fun v hv hn => ?_, fun u v hv hu huv => ?_⟩
    · exact ⟨q1 v hv ((hneeds30 v).2 hn), q5 v hv ((hneeds30 v).2 hn)⟩
    · exact q2 u v hv ((hneeds30 u).2 hu) ((hneeds31 u v).2 huv)
  · intro v hv hall
    exact k4 v ((hneeds30 v).2 hv) fun u hu huv => hall u ((hreach30 u).1 hu) (hsub u v huv)
  · intro v u
    rw [hdm, hreach30]
  · intro v hv
    have hv' : v ∉ nodes := fun h => hv ((hmem v).1 h)
    show g3 v = deps v
    rw [hg3', sortAll_not_mem _ _ _ _ _ hv', r3 v hv', e3 v hv']

/-- The same without the counts. -/
theorem sortExpressions_shared (env : SetupEnv) (isIndep : Ref → Bool) (root : Ref) (deps d₀ : Graph)
    (v₀ cost₀ : Ref → Nat) (n : Nat)
    (hord : ∀ u, Needs deps root u → OrderOk env.oi deps ((deps root).filter isIndep).length u)
    (hchain : ChainsLt deps root n) (hlim : n < env.limit)
    (hnd : ∀ u, Reach deps root u → (deps u).Nodup)
    (hleaf : ∀ i, Needs deps root i → isIndep i = true → deps i = [])
    (hd₀ : ∀ v, (d₀ v).Nodup) (hv₀ : ∀ v, Reach deps root v → v₀ v = (d₀ v).length) (hr₀ : d₀ root = []) :
    ∃ st l g1, sortExpressions env isIndep root ⟨deps, d₀, v₀, cost₀, []⟩ = .ok (st, l) ∧
      WithIndeps deps isIndep root g1 ∧ (∀ v ∈ l, Needs deps root v) ∧
      (∀ W : Ref → Prop, W root → (∀ u v, Reach deps root u → v ∈ g1 u → W v → W u) →
        (∀ u v, Reach deps root u → v ∈ g1 u → W v → u ∉ d₀ v) →
        (∀ v, W v → Needs deps root v → l.count v = 1 ∧ st.visits v = (st.dependents v).length) ∧
        (∀ u v, W v → Needs deps root u → Needs g1 u v → Before l u v)) ∧
      (∀ v, Needs deps root v → (∀ u, Reach deps root u → v ∈ g1 u → u ∈ d₀ v) → v ∉ l) ∧
      (∀ v, ¬ Reach deps root v → st.visits v = v₀ v) ∧ st.visits root = 1 ∧ st.dependents root = [] ∧
      (∀ v, (st.dependents v).Nodup) ∧
      (∀ v u, u ∈ st.dependents v ↔ u ∈ d₀ v ∨ (Reach deps root u ∧ v ∈ st.deps u)) ∧
      (∀ a b, b ∈ st.deps a → b ∈ g1 a) ∧ (∀ a b, Needs st.deps a b ↔ Needs g1 a b) ∧
      (∀ v, ¬ Needs deps root v → st.deps v = deps v) ∧ (∀ v, Needs g1 root v ↔ Needs deps root v) := by
  obtain ⟨st, l, g1, h1, -, h2⟩ := sortExpressions_shared_counts env isIndep root deps d₀ v₀ cost₀ n hord hchain hlim hnd
    hleaf hd₀ hv₀ hr₀
  exact ⟨st, l, g1, h1, h2⟩

end OM
