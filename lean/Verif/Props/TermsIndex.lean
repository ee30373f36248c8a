import Verif.Props.Terms
import Verif.Props.Setitem

/-! # The components of parts of arrays (C69) -/

namespace OM
open Spec

/-- The component of `x[key]` computes the selected elements, with exact partials. -/
theorem builtItem_good {shape : List Nat} {history : List Key} {key : Key} {ex : IndexedExpr}
    (h : (getItem (getItems (IVar.new shape shape) history) key).2 = .ok ex) (x : String)
    {e : List Nat → ℝ} {inp : String → Nat → ℝ}
    (he : ∀ sels, KeySelects shape key.items sels → ∀ j, InBounds ex.shape j →
      e j = inp x (ravel shape (List.zipWith (fun l i => l.getD i 0) sels j))) :
    (builtItem x shape ex.shape ex.src).Good ex.shape e inp := by
  obtain ⟨sels, s1, s2, s3, s4⟩ := c19_values history key h (inp x)
  refine good_of rfl (fun idx hidx => ?_) ?_
  · rw [he sels s1 idx hidx]
    simp only [List.getD_eq_getElem?_getD, s4 idx hidx, Option.getD_some]
  · have hlt : ∀ i ∈ ex.src, i < prodShape shape := by
      obtain ⟨i1, i2, i3, _⟩ := getItems_ok (ivar_new_ok shape shape) history
      obtain ⟨k, d, hk, -, -, he⟩ := (getItem_facts i1 key).result ex h
      rw [i2] at hk he
      rw [i3] at he
      exact (entry_sound hk he).2
    have hlen : ex.src.length = prodShape ex.shape := by simpa [decomposeCompute] using s3
    refine exactPartials_affine (by simp) ?_ ?_ (fun _ => 0) ?_
    · intro p hp c hc
      obtain rfl := List.mem_singleton.1 hp
      exact hlt c hc
    · intro p hp r hr
      rw [← hlen]
      simpa [decomposePartials] using hr
    · intro v i
      have hi : i.1 < ex.src.length := by rw [hlen]; exact i.2
      simp only [List.map_cons, List.map_nil, List.sum_cons, List.sum_nil, zero_add, add_zero]
      unfold decomposePartials Coo.apply
      rw [cooApply_range _ rfl (by simp) hi]
      simp [decomposeCompute, List.getD_eq_getElem?_getD, hi]

/-- The component of an output with assigned parts computes these parts, and 1 elsewhere, with exact partials. -/
theorem builtIndexed_good {shape : List Nat} {as : List Assign}
    (hacc : ∀ pre a post, as = pre ++ a :: post → AcceptedAt shape pre a)
    (hneg : ∀ a ∈ as, ∀ k, a.1 = .one (.int k) → 0 ≤ k) {f : Nat → ℝ} {inp : String → Nat → ℝ}
    (h1 : ∀ a ∈ as, ∀ pos, Touched shape a.1 pos → ∀ (k : Nat) (hk : k < pos.length), f pos[k] = inp a.2.1 k)
    (h2 : ∀ i < prodShape shape, (∀ a ∈ as, ∀ pos, Touched shape a.1 pos → i ∉ pos) → f i = 1) :
    (builtIndexed shape as).Good shape (fun idx => f (ravel shape idx)) inp := by
  have hno := noTrace_of_accepted hacc
  have htot : (builtIndexed shape as).total = indexedOutput (assigns (OVar.new shape) as).tgt fun _ => 1 := by
    funext inp
    obtain ⟨r, r1, -⟩ := c17_values_partial hno hneg inp fun _ => (1 : ℝ)
    unfold Built.total builtIndexed indexedOutput
    simp only [r1]
  obtain ⟨r, r1, r2, r3⟩ := c17_values_partial hno hneg inp fun _ => (1 : ℝ)
  refine ⟨rfl, ⟨r, r1, fun idx hidx => ?_⟩, ⟨_, rfl⟩, ?_⟩
  · by_cases hi : ∃ a ∈ as, ∃ pos, Touched shape a.1 pos ∧ ravel shape idx ∈ pos
    · obtain ⟨a, ha, pos, hp, hm⟩ := hi
      obtain ⟨pre, post, rfl⟩ := List.append_of_mem ha
      obtain ⟨pos', p1, -, -, p4⟩ := r2 pre a post rfl (hacc pre a post rfl)
      obtain rfl := touched_unique hp p1
      obtain ⟨k, hk, hke⟩ := List.getElem_of_mem hm
      rw [← hke, p4 k hk, h1 a ha pos hp k hk]
    · push Not at hi
      rw [r3 _ fun pre a post pos he _ hp => hi a (by simp [he]) pos hp]
      exact (h2 _ (ravel_lt hidx) hi).symm
  · rw [htot]
    exact c17_partials hno hneg (fun _ => 1) inp

/-- Names and sizes of the inputs of such a component. -/
theorem builtIndexed_ins {shape : List Nat} {as : List Assign}
    (hacc : ∀ pre a post, as = pre ++ a :: post → AcceptedAt shape pre a) :
    ((builtIndexed shape as).ins.map Prod.fst).Nodup ∧
    ∀ p, p ∈ (builtIndexed shape as).ins ↔ ∃ a ∈ as, p = (a.2.1, prodShape a.2.2) := by
  obtain ⟨-, t2⟩ := assigns_tgt (noTrace_of_accepted hacc)
  refine ⟨?_, fun p => ⟨fun hp => ?_, ?_⟩⟩
  · show ((indexedIns _).map Prod.fst).Nodup
    unfold indexedIns
    rw [List.map_map]
    exact assigns_names shape as
  · obtain ⟨q, hq, rfl⟩ := List.mem_map.1 hp
    obtain ⟨pre, a, post, idx, he, -, -, rfl⟩ := (t2 q).1 hq
    exact ⟨a, by simp [he], rfl⟩
  · rintro ⟨a, ha, rfl⟩
    obtain ⟨pre, post, he⟩ := List.append_of_mem ha
    have hac := hacc pre a post he
    obtain ⟨idx, i1, -⟩ := accepted_entry hac
    exact List.mem_map.2 ⟨_, (t2 _).2 ⟨pre, a, post, idx, he, hac, i1, rfl⟩, rfl⟩

end OM
