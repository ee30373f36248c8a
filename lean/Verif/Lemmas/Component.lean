import Verif.Spec.Component
import Verif.Lemmas.Jacobian

namespace OM
open Spec

theorem inputsOf_slot {ins : List (String × Nat)} (hn : (ins.map Prod.fst).Nodup) (y : Slot ins → ℝ)
    (k : Fin ins.length) (j : Nat) :
    inputsOf ins y ins[k].1 j = if h : j < ins[k].2 then y ⟨k, ⟨j, h⟩⟩ else 0 := by
  unfold inputsOf
  have : (List.finRange ins.length).find? (fun k' => ins[k'].1 == ins[k].1) = some k := by
    rw [List.find?_eq_some_iff_append]
    refine ⟨by simp, ?_⟩
    obtain ⟨as, bs, hab⟩ := List.append_of_mem (List.mem_finRange k)
    refine ⟨as, bs, hab, ?_⟩
    intro a ha
    simp only [Bool.not_eq_eq_eq_not, Bool.not_true, beq_eq_false_iff_ne, ne_eq]
    intro he
    have hak : a = k := by
      have h1 : (ins.map Prod.fst)[a.1]'(by simp) = (ins.map Prod.fst)[k.1]'(by simp) := by
        simpa using he
      exact Fin.ext ((List.Nodup.getElem_inj_iff hn).1 h1)
    subst hak
    have hnd := List.nodup_finRange ins.length
    rw [hab, List.nodup_append] at hnd
    exact hnd.2.2 a ha a (by simp) rfl
  rw [this]

theorem inputsOf_of_mem {ins : List (String × Nat)} (hn : (ins.map Prod.fst).Nodup)
    (y : Slot ins → ℝ) (k : Fin ins.length) (j : Fin ins[k].2) :
    inputsOf ins y ins[k].1 j = y ⟨k, j⟩ := by
  rw [inputsOf_slot hn, dif_pos j.2]

theorem slots_inputsOf {ins : List (String × Nat)} (hn : (ins.map Prod.fst).Nodup) (y : Slot ins → ℝ) :
    slots ins (inputsOf ins y) = y := by
  funext s
  exact inputsOf_of_mem hn y s.1 s.2

theorem inputsOf_slots {ins : List (String × Nat)} (hn : (ins.map Prod.fst).Nodup)
    (inp : String → Nat → ℝ) {nm : String} {N : Nat} (hm : (nm, N) ∈ ins) {j : Nat} (hj : j < N) :
    inputsOf ins (slots ins inp) nm j = inp nm j := by
  obtain ⟨k, hk, hke⟩ := List.getElem_of_mem hm
  have h1 : ins[(⟨k, hk⟩ : Fin ins.length)].1 = nm := by simp [hke]
  have h2 : j < ins[(⟨k, hk⟩ : Fin ins.length)].2 := by simp [hke, hj]
  have := inputsOf_of_mem hn (slots ins inp) ⟨k, hk⟩ ⟨j, h2⟩
  rw [h1] at this
  rw [this]
  simp [slots, hke]

/-- The declared matrix applied to a vector. -/
def Coo.apply (s : Coo) (y : Nat → ℝ) (i : Nat) : ℝ := cooApply s.rows s.cols s.vals y i

theorem cooApply_congr {rows cols : List Nat} {vals : List ℝ} {y z : Nat → ℝ} (i : Nat)
    (h : ∀ c ∈ cols, y c = z c) : cooApply rows cols vals y i = cooApply rows cols vals z i := by
  unfold cooApply
  congr 1
  apply List.map_congr_left
  intro p hp
  rw [h _ (mem_zip_cols hp)]

theorem sum_slots {ins : List (String × Nat)} (hn : (ins.map Prod.fst).Nodup) {partials : String → Coo}
    (hc : ∀ p ∈ ins, ∀ c ∈ (partials p.1).cols, c < p.2) (v : Slot ins → ℝ) (i : Nat) :
    ∑ s : Slot ins, entry (partials ins[s.1].1) i s.2 * v s =
      (ins.map fun p => (partials p.1).apply (inputsOf ins v p.1) i).sum := by
  rw [Fintype.sum_sigma]
  have : ∀ k : Fin ins.length,
      ∑ j : Fin ins[k].2, entry (partials ins[k].1) i j * v ⟨k, j⟩ =
        (partials ins[k].1).apply (inputsOf ins v ins[k].1) i := by
    intro k
    have hck := hc ins[k] (List.getElem_mem _)
    unfold entry Coo.apply
    rw [coo_sum hck (fun j => v ⟨k, j⟩)]
    refine cooApply_congr i fun c hcc => ?_
    rw [inputsOf_slot hn, dif_pos (hck c hcc), flat_of_lt _ (hck c hcc)]
  rw [Finset.sum_congr rfl fun k _ => this k]
  rw [← Fin.sum_univ_fun_getElem]
  rfl

/-- How exactness is proved: differentiate each output, then compare the action of both linear maps. -/
theorem exactPartials_of {ins : List (String × Nat)} (hn : (ins.map Prod.fst).Nodup) {n : Nat}
    {compute : (String → Nat → ℝ) → Nat → ℝ} {partials : String → Coo} {inp : String → Nat → ℝ}
    (hc : ∀ p ∈ ins, ∀ c ∈ (partials p.1).cols, c < p.2)
    (hr : ∀ p ∈ ins, ∀ r ∈ (partials p.1).rows, r < n)
    (L : Fin n → (Slot ins → ℝ) →L[ℝ] ℝ)
    (hF : ∀ i : Fin n, HasFDerivAt (fun y => compute (inputsOf ins y) i) (L i) (slots ins inp))
    (hL : ∀ (i : Fin n) v, L i v =
      (ins.map fun p => (partials p.1).apply (inputsOf ins v p.1) i).sum) :
    ExactPartials ins n compute partials inp :=
  ⟨isJacobian_of_hasFDerivAt hF fun i v => by rw [hL, sum_slots hn hc], hc, hr⟩

/-- Affine components. -/
theorem exactPartials_affine {ins : List (String × Nat)} (hn : (ins.map Prod.fst).Nodup) {n : Nat}
    {compute : (String → Nat → ℝ) → Nat → ℝ} {partials : String → Coo} {inp : String → Nat → ℝ}
    (hc : ∀ p ∈ ins, ∀ c ∈ (partials p.1).cols, c < p.2)
    (hr : ∀ p ∈ ins, ∀ r ∈ (partials p.1).rows, r < n)
    (const : Nat → ℝ)
    (h : ∀ v (i : Fin n), compute (inputsOf ins v) i =
      const i + (ins.map fun p => (partials p.1).apply (inputsOf ins v p.1) i).sum) :
    ExactPartials ins n compute partials inp :=
  ⟨isJacobian_affine (fun i : Fin n => const i) (fun y i => by rw [h, sum_slots hn hc]) _, hc, hr⟩

/-- The value of one input entry is linear in the vector of all input values. -/
def inputL (ins : List (String × Nat)) (name : String) (j : Nat) : (Slot ins → ℝ) →L[ℝ] ℝ :=
  match (List.finRange ins.length).find? (fun k => ins[k].1 == name) with
  | none => 0
  | some k => if h : j < ins[k].2 then
      (ContinuousLinearMap.proj (⟨k, ⟨j, h⟩⟩ : Slot ins) : (Slot ins → ℝ) →L[ℝ] ℝ) else 0

theorem inputL_apply (ins : List (String × Nat)) (name : String) (j : Nat) (v : Slot ins → ℝ) :
    inputL ins name j v = inputsOf ins v name j := by
  unfold inputL inputsOf
  cases hf : (List.finRange ins.length).find? (fun k => ins[k].1 == name) with
  | none => rfl
  | some k =>
    simp only
    by_cases h : j < ins[k].2
    · simp only [dif_pos h]; rfl
    · simp only [dif_neg h]; rfl

theorem hasFDerivAt_input (ins : List (String × Nat)) (name : String) (j : Nat) (x : Slot ins → ℝ) :
    HasFDerivAt (fun y => inputsOf ins y name j) (inputL ins name j) x := by
  have : (fun y : Slot ins → ℝ => inputsOf ins y name j) = fun y => inputL ins name j y :=
    funext fun y => (inputL_apply ins name j y).symm
  rw [this]
  exact (inputL ins name j).hasFDerivAt

/-- Exact partials are determined: they act as every derivative of the output does. -/
theorem exactPartials_action {ins : List (String × Nat)} (hn : (ins.map Prod.fst).Nodup) {n : Nat}
    {compute : (String → Nat → ℝ) → Nat → ℝ} {partials : String → Coo} {inp : String → Nat → ℝ}
    (h : ExactPartials ins n compute partials inp) {i : Nat} (hi : i < n) {L : (Slot ins → ℝ) →L[ℝ] ℝ}
    (hL : HasFDerivAt (fun y => compute (inputsOf ins y) i) L (slots ins inp)) (v : Slot ins → ℝ) :
    L v = (ins.map fun p => (partials p.1).apply (inputsOf ins v p.1) i).sum := by
  rw [hL.unique (h.jac ⟨i, hi⟩), ← sum_slots hn h.cols v i]
  simp

end OM
