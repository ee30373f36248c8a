import Verif.Model.Compile
import Verif.Lemmas.Component
import Verif.Props.Totals

/-! # Components with named arrays as components with one vector of all inputs -/

namespace OM
open Spec

/-- The partials, zero if an exception is raised. -/
noncomputable def Built.coo (b : Built) (inp : String → Nat → ℝ) : String → Coo :=
  match b.partials inp with
  | .error _ => fun _ => ⟨[], [], []⟩
  | .ok p => p

/-- The component with these outputs, without exceptions. -/
noncomputable def outsComp (size : String → Nat) (outs : List (String × Built)) : Comp (FlatArr size) :=
  ⟨(insOf outs).map Prod.fst, outs.map Prod.fst, fun x n i =>
    match outs.find? fun p => p.1 == n with
    | none => 0
    | some p => p.2.total (lookup x) i⟩

/-- A matrix declared, as a linear map from input `m` to output `n`. -/
noncomputable def cooL (size : String → Nat) (C : Coo) (m n : String) : FlatArr size m →L[ℝ] FlatArr size n :=
  ContinuousLinearMap.pi fun r : Fin (size n) => ∑ j : Fin (size m),
    entry C r j • (ContinuousLinearMap.proj j : FlatArr size m →L[ℝ] ℝ)

/-- The matrices declared, as linear maps. -/
noncomputable def outsD (size : String → Nat) (outs : List (String × Built)) : Partials (outsComp size outs) :=
  fun x n i =>
    match outs.find? fun p => p.1 == n with
    | none => 0
    | some p => cooL size (p.2.coo (lookup (reads := (insOf outs).map Prod.fst) x) ((insOf outs).map Prod.fst)[i])
        ((insOf outs).map Prod.fst)[i] n

section
variable {size : String → Nat} {reads : List String}

/-- One entry of one input is linear in all inputs. -/
def lookupL (size : String → Nat) (reads : List String) (n : String) (j : Nat) :
    ((i : Fin reads.length) → FlatArr size reads[i]) →L[ℝ] ℝ :=
  match (List.finRange reads.length).find? (fun k => reads[k] == n) with
  | none => 0
  | some k => if h : j < size reads[k] then
      (ContinuousLinearMap.proj (⟨j, h⟩ : Fin (size reads[k])) : FlatArr size reads[k] →L[ℝ] ℝ).comp
        (ContinuousLinearMap.proj (R := ℝ) (φ := fun i : Fin reads.length => FlatArr size reads[i]) k) else 0

theorem lookupL_apply (n : String) (j : Nat) (x : (i : Fin reads.length) → FlatArr size reads[i]) :
    lookupL size reads n j x = lookup x n j := by
  unfold lookupL lookup
  cases hf : (List.finRange reads.length).find? (fun k => reads[k] == n) with
  | none => rfl
  | some k =>
    simp only
    by_cases h : j < size reads[k]
    · simp only [dif_pos h]; rfl
    · simp only [dif_neg h]; rfl

theorem find_slot (hn : reads.Nodup) (k : Fin reads.length) :
    (List.finRange reads.length).find? (fun k' => reads[k'] == reads[k]) = some k := by
  rw [List.find?_eq_some_iff_append]
  refine ⟨by simp, ?_⟩
  obtain ⟨as, bs, hab⟩ := List.append_of_mem (List.mem_finRange k)
  refine ⟨as, bs, hab, ?_⟩
  intro a ha
  simp only [Bool.not_eq_eq_eq_not, Bool.not_true, beq_eq_false_iff_ne, ne_eq]
  intro he
  have hak : a = k := Fin.ext ((List.Nodup.getElem_inj_iff hn).1 he)
  subst hak
  have hnd := List.nodup_finRange reads.length
  rw [hab, List.nodup_append] at hnd
  exact hnd.2.2 a ha a (by simp) rfl

theorem lookup_slot (hn : reads.Nodup) (x : (i : Fin reads.length) → FlatArr size reads[i])
    (k : Fin reads.length) (j : Nat) :
    lookup x reads[k] j = if h : j < size reads[k] then x k ⟨j, h⟩ else 0 := by
  unfold lookup
  rw [find_slot hn k]

/-- The arrays of a store, looked up by name. -/
theorem lookup_store (s : Store (FlatArr size)) {n : String} (hm : n ∈ reads) (j : Nat) :
    lookup (reads := reads) (fun i => s reads[i]) n j = if h : j < size n then s n ⟨j, h⟩ else 0 := by
  unfold lookup
  cases hf : (List.finRange reads.length).find? (fun k => reads[k] == n) with
  | none =>
    exfalso
    obtain ⟨k, hk, hke⟩ := List.getElem_of_mem hm
    have := List.find?_eq_none.1 hf ⟨k, hk⟩ (List.mem_finRange _)
    simp [hke] at this
  | some k =>
    have := List.find?_some hf
    simp only [beq_iff_eq] at this
    subst this
    rfl

theorem lookup_none (x : (i : Fin reads.length) → FlatArr size reads[i]) {n : String} (hm : n ∉ reads) (j : Nat) :
    lookup x n j = 0 := by
  unfold lookup
  cases hf : (List.finRange reads.length).find? (fun k => reads[k] == n) with
  | none => rfl
  | some k =>
    have := List.find?_some hf
    simp only [beq_iff_eq] at this
    exact absurd (this ▸ List.getElem_mem _) hm

end

variable {size : String → Nat} {ins : List (String × Nat)}

theorem inputsOf_lookup (hn : (ins.map Prod.fst).Nodup) (hsize : ∀ p ∈ ins, size p.1 = p.2)
    (x : (i : Fin (ins.map Prod.fst).length) → FlatArr size (ins.map Prod.fst)[i]) :
    inputsOf ins (slots ins (lookup x)) = lookup x := by
  funext n j
  by_cases hm : n ∈ ins.map Prod.fst
  · obtain ⟨p, hp, rfl⟩ := List.mem_map.1 hm
    by_cases hj : j < p.2
    · exact inputsOf_slots hn _ hp hj
    · obtain ⟨k, hk, rfl⟩ := List.getElem_of_mem hp
      have h1 := inputsOf_slot hn (slots ins (lookup x)) ⟨k, hk⟩ j
      rw [dif_neg (by exact hj)] at h1
      refine Eq.trans h1 ?_
      have hk2 : k < (ins.map Prod.fst).length := by simpa using hk
      have h2 := lookup_slot hn x ⟨k, hk2⟩ j
      have hke2 : (ins.map Prod.fst)[(⟨k, hk2⟩ : Fin (ins.map Prod.fst).length)] = ins[k].1 := by
        simp
      have hs : ¬ j < size (ins.map Prod.fst)[(⟨k, hk2⟩ : Fin (ins.map Prod.fst).length)] := by
        rw [hke2, hsize _ hp]; exact hj
      rw [dif_neg hs] at h2
      rw [hke2] at h2
      exact h2.symm
  · rw [lookup_none x hm]
    unfold inputsOf
    cases hf : (List.finRange ins.length).find? (fun k => ins[k].1 == n) with
    | none => rfl
    | some k =>
      have := List.find?_some hf
      simp only [beq_iff_eq] at this
      exact absurd (List.mem_map.2 ⟨ins[k], List.getElem_mem _, this⟩) hm

/-- Exact matrices give the derivative by the vector of all inputs. -/
theorem flat_exact {N : Nat} {out : String} {f : (String → Nat → ℝ) → Nat → ℝ} {C : String → Coo}
    (hn : (ins.map Prod.fst).Nodup) (hsize : ∀ p ∈ ins, size p.1 = p.2) (hout : size out = N)
    (x : (i : Fin (ins.map Prod.fst).length) → FlatArr size (ins.map Prod.fst)[i])
    (h : ExactPartials ins N f C (lookup x)) :
    HasFDerivAt (fun (y : (i : Fin (ins.map Prod.fst).length) → FlatArr size (ins.map Prod.fst)[i])
        (r : Fin (size out)) => f (lookup y) r)
      (∑ i, (cooL size (C (ins.map Prod.fst)[i]) (ins.map Prod.fst)[i] out).comp
        (ContinuousLinearMap.proj (R := ℝ)
          (φ := fun i : Fin (ins.map Prod.fst).length => FlatArr size (ins.map Prod.fst)[i]) i)) x := by
  refine hasFDerivAt_pi'.2 fun r => ?_
  have hr : r.1 < N := hout ▸ r.2
  let T : ((i : Fin (ins.map Prod.fst).length) → FlatArr size (ins.map Prod.fst)[i]) →L[ℝ] (Slot ins → ℝ) :=
    ContinuousLinearMap.pi fun s => lookupL size (ins.map Prod.fst) ins[s.1].1 s.2
  have hT : ∀ y, T y = slots ins (lookup y) := fun y => funext fun s => lookupL_apply _ _ y
  have h1 := h.jac ⟨r.1, hr⟩
  rw [← hT x] at h1
  have h2 := h1.comp x T.hasFDerivAt
  refine (h2.congr_of_eventuallyEq (Filter.Eventually.of_forall fun y => ?_)).congr_fderiv ?_
  · show f (lookup y) r = f (inputsOf ins (T y)) r
    rw [hT, inputsOf_lookup hn hsize]
  · ext q
    have e1 : ∀ i : Fin (ins.map Prod.fst).length,
        (cooL size (C (ins.map Prod.fst)[i]) (ins.map Prod.fst)[i] out (q i)) r =
          ∑ j ∈ Finset.range (size (ins.map Prod.fst)[i]),
            entry (C (ins.map Prod.fst)[i]) r j * lookup q (ins.map Prod.fst)[i] j := by
      intro i
      rw [Finset.sum_range]
      have e0 : (cooL size (C (ins.map Prod.fst)[i]) (ins.map Prod.fst)[i] out (q i)) r =
          (∑ j : Fin (size (ins.map Prod.fst)[i]),
            (entry (C (ins.map Prod.fst)[i]) r j •
              (ContinuousLinearMap.proj j : FlatArr size (ins.map Prod.fst)[i] →L[ℝ] ℝ)) :
            FlatArr size (ins.map Prod.fst)[i] →L[ℝ] ℝ) (q i) := rfl
      rw [e0, ContinuousLinearMap.sum_apply]
      refine Finset.sum_congr rfl fun j _ => ?_
      rw [lookup_slot hn q i j, dif_pos j.2]
      rfl
    have e2 : ∀ k : Fin ins.length, ∑ j : Fin ins[k].2, entry (C ins[k].1) r j * T q ⟨k, j⟩ =
        ∑ j ∈ Finset.range ins[k].2, entry (C ins[k].1) r j * lookup q ins[k].1 j := by
      intro k
      rw [Finset.sum_range]
      refine Finset.sum_congr rfl fun j _ => ?_
      rw [hT]; rfl
    have e3 : (∑ s : Slot ins, entry (C ins[s.1].1) r s.2 * T q s) =
        ∑ i : Fin (ins.map Prod.fst).length,
          (cooL size (C (ins.map Prod.fst)[i]) (ins.map Prod.fst)[i] out (q i)) r := by
      rw [Fintype.sum_sigma, Finset.sum_congr rfl fun k _ => e2 k, Finset.sum_congr rfl fun i _ => e1 i]
      have f1 := Fin.sum_univ_fun_getElem ins fun p => ∑ j ∈ Finset.range p.2,
        entry (C p.1) r j * lookup q p.1 j
      have f2 := Fin.sum_univ_fun_getElem (ins.map Prod.fst) fun nm => ∑ j ∈ Finset.range (size nm),
        entry (C nm) r j * lookup q nm j
      refine f1.trans (Eq.trans ?_ f2.symm)
      rw [List.map_map]
      congr 1
      refine List.map_congr_left fun p hp => ?_
      simp only [Function.comp_apply, hsize p hp]
    refine Eq.trans ?_ (e3.trans ?_)
    · simp
    · have e4 : (∑ i : Fin (ins.map Prod.fst).length,
        (cooL size (C (ins.map Prod.fst)[i]) (ins.map Prod.fst)[i] out).comp
        (ContinuousLinearMap.proj (R := ℝ)
          (φ := fun i : Fin (ins.map Prod.fst).length => FlatArr size (ins.map Prod.fst)[i]) i)) q r =
          ∑ i : Fin (ins.map Prod.fst).length,
            (cooL size (C (ins.map Prod.fst)[i]) (ins.map Prod.fst)[i] out (q i)) r := by
        rw [ContinuousLinearMap.sum_apply, Finset.sum_apply]
        rfl
      exact e4.symm

theorem outs_find {outs : List (String × Built)} {n : String} (hn : n ∈ outs.map Prod.fst) :
    ∃ p ∈ outs, p.1 = n ∧ outs.find? (fun p => p.1 == n) = some p := by
  cases hf : outs.find? (fun p => p.1 == n) with
  | none =>
    obtain ⟨p, hp, rfl⟩ := List.mem_map.1 hn
    simpa using List.find?_eq_none.1 hf p hp
  | some p => exact ⟨p, List.mem_of_find?_eq_some hf, by simpa using List.find?_some hf, rfl⟩

/-- Exact partials of a component are exact partials in the sense of C56. -/
theorem outs_exactAt {outs : List (String × Built)} (hn : ((insOf outs).map Prod.fst).Nodup)
    (hsize : ∀ p ∈ insOf outs, size p.1 = p.2) (hout : ∀ p ∈ outs, size p.1 = prodShape p.2.shape)
    (x : (i : Fin ((insOf outs).map Prod.fst).length) → FlatArr size ((insOf outs).map Prod.fst)[i])
    (h : ∀ p ∈ outs, ExactPartials (insOf outs) (prodShape p.2.shape) p.2.total (p.2.coo (lookup x)) (lookup x)) :
    (outsD size outs).ExactAt x := by
  intro n hn'
  obtain ⟨p, hp, rfl, hf⟩ := outs_find (outs := outs) (n := n) hn'
  have h1 := flat_exact hn hsize (hout p hp) x (h p hp)
  refine (h1.congr_of_eventuallyEq (Filter.Eventually.of_forall fun y => ?_)).congr_fderiv ?_
  · funext r
    show (match outs.find? (fun p' => p'.1 == p.1) with
      | none => 0
      | some p => p.2.total (lookup y) r) = _
    rw [hf]
  · refine Finset.sum_congr rfl fun i _ => ?_
    congr 1
    unfold outsD
    simp only [hf]
    rfl

/-! ## Running without exceptions -/

theorem runAllE_append {V : String → Type} (l l' : List (CompE V)) (s : Store V) :
    runAllE (l ++ l') s = match runAllE l s with
      | .error e => .error e
      | .ok s' => runAllE l' s' := by
  induction l generalizing s with
  | nil => rfl
  | cons c l ih =>
    rw [List.cons_append, runAllE, runAllE]
    cases c.run s with
    | error e => rfl
    | ok s' => exact ih s'

theorem runAllE_ok {V : String → Type} {ce : Ref → CompE V} {c : Ref → Comp V} {init : Store V} (l : List Ref)
    (h : ∀ p u s, l = p ++ u :: s →
      (ce u).run (runAll (p.map c) init) = .ok ((c u).run (runAll (p.map c) init))) :
    runAllE (l.map ce) init = .ok (runAll (l.map c) init) := by
  induction l using List.reverseRecOn with
  | nil => rfl
  | append_singleton l u ih =>
    rw [List.map_append, List.map_append, runAllE_append, runAll_append,
      ih fun p v s e => h p v (s ++ [u]) (by rw [e]; simp)]
    have := h l u [] rfl
    simp only [List.map_cons, List.map_nil, runAllE, this]
    rfl

theorem raised_of {b : Built} {inp : String → Nat → ℝ} {r : Nat → ℝ} (h : b.compute inp = .ok r) :
    b.raised inp = none := by
  unfold Built.raised
  rw [h]

theorem outsCompE_run {outs : List (String × Built)} {s : Store (FlatArr size)}
    (h : ∀ p ∈ outs, ∃ r, p.2.compute
      (lookup (reads := (insOf outs).map Prod.fst) fun i => s ((insOf outs).map Prod.fst)[i]) = .ok r) :
    (outsCompE size outs).run s = .ok ((outsComp size outs).run s) := by
  have hn : (outs.findSome? fun p => p.2.raised
      (lookup (reads := (insOf outs).map Prod.fst) fun i => s ((insOf outs).map Prod.fst)[i])) = none := by
    refine List.findSome?_eq_none_iff.2 fun p hp => ?_
    obtain ⟨r, hr⟩ := h p hp
    exact raised_of hr
  unfold CompE.run Comp.run outsCompE outsComp
  simp only [hn]
  rfl

end OM
