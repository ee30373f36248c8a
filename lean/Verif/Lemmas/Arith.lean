import Verif.Model.Arith
import Verif.Lemmas.Component
import Mathlib.Analysis.SpecialFunctions.Pow.Deriv

namespace OM
open Spec

theorem eventually_list {α β : Type} {f : Filter α} {P : β → α → Prop} {l : List β}
    (h : ∀ b ∈ l, ∀ᶠ y in f, P b y) : ∀ᶠ y in f, ∀ b ∈ l, P b y := by
  induction l with
  | nil => simp
  | cons a l ih =>
    filter_upwards [h a (by simp), ih fun b hb => h b (by simp [hb])] with y h1 h2
    intro b hb
    rcases List.mem_cons.1 hb with rfl | hb
    · exact h1
    · exact h2 b hb

theorem find_name {β : Type} {l : List (String × β)} (h : (l.map Prod.fst).Nodup) {t : String × β}
    (ht : t ∈ l) : l.find? (fun t' => t'.1 == t.1) = some t := by
  induction l with
  | nil => cases ht
  | cons a l ih =>
    simp only [List.map_cons, List.nodup_cons] at h
    rcases List.mem_cons.1 ht with rfl | ht
    · simp
    · rw [List.find?_cons_of_neg, ih h.2 ht]
      simp only [beq_iff_eq]
      intro he
      exact h.1 (he ▸ List.mem_map_of_mem ht)

theorem zip_fst_sublist {α β : Type} (l : List α) (m : List β) :
    List.Sublist ((l.zip m).map Prod.fst) l := by
  induction l generalizing m with
  | nil => simp
  | cons a l ih =>
    cases m with
    | nil => simp
    | cons b m => simpa using (ih m).cons_cons a

/-! ## Linear combinations -/

theorem lin_compute (c : Lin) (inp : String → Nat → ℝ) (i : Nat) :
    c.compute inp i = c.constant.at i + (c.terms.map fun t => t.2 * inp t.1 i).sum := by
  unfold Lin.compute
  generalize c.constant.at = out
  induction c.terms generalizing out with
  | nil => simp
  | cons t ts ih =>
    rw [List.foldl_cons, ih]
    simp only [List.map_cons, List.sum_cons]
    ring

theorem cooApply_diag {N : Nat} {vals : List ℝ} (hv : vals.length = N) (y : Nat → ℝ) {i : Nat}
    (hi : i < N) : cooApply (List.range N) (List.range N) vals y i = vals.getD i 0 * y i := by
  rw [cooApply_range y List.length_range hv hi]
  simp [List.getD_eq_getElem?_getD, hi]

theorem lin_exact {c : Lin} (h : (c.terms.map Prod.fst).Nodup) (inp : String → Nat → ℝ) :
    ExactPartials c.ins c.size c.compute c.partials inp := by
  have hn : (c.ins.map Prod.fst).Nodup := by
    rw [Lin.ins, List.map_map]; exact h
  have hp : ∀ t ∈ c.terms, c.partials t.1 =
      ⟨List.range c.size, List.range c.size, List.replicate c.size t.2⟩ := by
    intro t ht
    unfold Lin.partials
    rw [find_name h ht]
  refine exactPartials_affine hn ?_ ?_ c.constant.at ?_
  · intro p hp'
    obtain ⟨t, ht, rfl⟩ := List.mem_map.1 hp'
    rw [hp t ht]
    simp
  · intro p hp'
    obtain ⟨t, ht, rfl⟩ := List.mem_map.1 hp'
    rw [hp t ht]
    simp
  · intro v i
    rw [lin_compute]
    congr 2
    generalize inputsOf c.ins v = w
    rw [Lin.ins, List.map_map]
    apply List.map_congr_left
    intro t ht
    simp only [Function.comp_apply, hp t ht, Coo.apply]
    rw [cooApply_diag (by simp) _ i.2]
    simp [List.getD_eq_getElem?_getD]

/-! ## Power combinations -/

/-- Points at which the real power is what NumPy computes and is differentiable by the base. -/
def PowOk (x p : ℝ) : Prop := 0 < x ∨ (∃ n : ℤ, p = n) ∧ (x ≠ 0 ∨ 1 ≤ p)

theorem PowOk.smooth {x p : ℝ} (h : PowOk x p) : x ≠ 0 ∨ 1 ≤ p := by
  rcases h with h | h
  · exact .inl h.ne'
  · exact h.2

/-- The mathematical value of a power combination. -/
noncomputable def Pow.value (c : Pow) (inp : String → Nat → ℝ) (i : Nat) : ℝ :=
  c.coeff.at i * (c.terms.map fun t => (inp t.1 i : ℝ) ^ (t.2.at i : ℝ)).prod

/-- The zero check passes for a factor. -/
def Passes (c : Pow) (inp : String → Nat → ℝ) (t : String × Power) : Prop :=
  (∃ i < c.size, inp t.1 i = 0) → zeroCheck t.2 = none

theorem foldl_prod (l : List (String × Power)) (g : String × Power → Nat → ℝ)
    (out : Nat → ℝ) (i : Nat) :
    (l.foldl (fun v t i => v i * g t i) out) i = out i * (l.map fun t => g t i).prod := by
  induction l generalizing out with
  | nil => simp
  | cons t ts ih =>
    rw [List.foldl_cons, ih]
    simp only [List.map_cons, List.prod_cons]
    ring

open Classical in
theorem pow_compute {c : Pow} {inp : String → Nat → ℝ} (h : ∀ t ∈ c.terms, Passes c inp t) :
    c.compute inp = .ok (c.value inp) := by
  unfold Pow.compute
  have key : ∀ (l : List (String × Power)) (out : Nat → ℝ), (∀ t ∈ l, Passes c inp t) →
      l.foldlM (m := Except PyErr) (fun (out : Nat → ℝ) (t : String × Power) =>
        match (if ∃ i < c.size, inp t.1 i = 0 then zeroCheck t.2 else none) with
        | some e => .error e
        | none => .ok (fun i => out i * (inp t.1 i) ^ (t.2.at i) : Nat → ℝ)) out =
      .ok (fun i => out i * (l.map fun t => (inp t.1 i : ℝ) ^ (t.2.at i : ℝ)).prod) := by
    intro l
    induction l with
    | nil => intro out _; simp [pure, Except.pure]
    | cons t ts ih =>
      intro out hl
      have h1 : (if ∃ i < c.size, inp t.1 i = 0 then zeroCheck t.2 else none) = none := by
        split
        · rename_i h0; exact hl t (by simp) h0
        · rfl
      rw [List.foldlM_cons, h1]
      simp only [bind, Except.bind]
      rw [ih _ fun t ht => hl t (by simp [ht])]
      congr 1
      funext i
      simp only [List.map_cons, List.prod_cons]
      ring
  exact key c.terms _ h

open Classical in
theorem pow_compute_ok {c : Pow} {inp : String → Nat → ℝ} {r : Nat → ℝ} (h : c.compute inp = .ok r) :
    (∀ t ∈ c.terms, Passes c inp t) ∧ r = c.value inp := by
  have key : ∀ (l : List (String × Power)) (out r : Nat → ℝ),
      l.foldlM (m := Except PyErr) (fun (out : Nat → ℝ) (t : String × Power) =>
        match (if ∃ i < c.size, inp t.1 i = 0 then zeroCheck t.2 else none) with
        | some e => .error e
        | none => .ok (fun i => out i * (inp t.1 i) ^ (t.2.at i) : Nat → ℝ)) out = .ok r →
      ∀ t ∈ l, Passes c inp t := by
    intro l
    induction l with
    | nil => simp
    | cons t ts ih =>
      intro out r hl t' ht'
      rw [List.foldlM_cons] at hl
      cases h1 : (if ∃ i < c.size, inp t.1 i = 0 then zeroCheck t.2 else none) with
      | some e => rw [h1] at hl; cases hl
      | none =>
        rw [h1] at hl
        simp only [bind, Except.bind] at hl
        rcases List.mem_cons.1 ht' with rfl | ht'
        · intro h0
          rw [if_pos h0] at h1
          exact h1
        · exact ih _ _ hl t' ht'
  have hp : ∀ t ∈ c.terms, Passes c inp t := key c.terms c.coeff.at r h
  refine ⟨hp, ?_⟩
  rw [pow_compute hp] at h
  exact (Except.ok.inj h).symm

theorem pow_deriv (c : Pow) (inp : String → Nat → ℝ) (name : String) (i : Nat) :
    c.deriv inp name i = c.coeff.at i * (c.terms.map fun t =>
      (if name = t.1 then t.2.at i else 1) *
        (inp t.1 i : ℝ) ^ ((if name = t.1 then t.2.at i - 1 else t.2.at i) : ℝ)).prod := by
  unfold Pow.deriv
  rw [foldl_prod c.terms (fun t i => (if name = t.1 then t.2.at i else 1) *
        (inp t.1 i : ℝ) ^ ((if name = t.1 then t.2.at i - 1 else t.2.at i) : ℝ))]

/-- The derivative of the mathematical value, with the given coefficient. -/
theorem hasFDerivAt_value {c : Pow} (hn : (c.terms.map Prod.fst).Nodup) {inp : String → Nat → ℝ}
    {i : Nat} (hi : i < c.size)
    (hok : ∀ t ∈ c.terms, (inp t.1 i ≠ 0 ∨ 1 ≤ t.2.at i)) :
    ∃ L : (Slot c.ins → ℝ) →L[ℝ] ℝ,
      HasFDerivAt (fun y => c.value (inputsOf c.ins y) i) L (slots c.ins inp) ∧
      ∀ v, L v = (c.terms.map fun t => c.deriv inp t.1 i * inputsOf c.ins v t.1 i).sum := by
  set m := c.terms.length
  have hins : (c.ins.map Prod.fst).Nodup := by
    rw [Pow.ins, List.map_map]; exact hn
  have hinp : ∀ t ∈ c.terms, inputsOf c.ins (slots c.ins inp) t.1 i = inp t.1 i := by
    intro t ht
    exact inputsOf_slots hins inp (List.mem_map.2 ⟨t, ht, rfl⟩) hi
  have hg : ∀ k : Fin m, HasFDerivAt
      (fun y => (inputsOf c.ins y c.terms[k.1].1 i : ℝ) ^ (c.terms[k.1].2.at i : ℝ))
      (((c.terms[k.1].2.at i) * (inp c.terms[k.1].1 i) ^ (c.terms[k.1].2.at i - 1)) •
        inputL c.ins c.terms[k.1].1 i) (slots c.ins inp) := by
    intro k
    have hk : c.terms[k.1] ∈ c.terms := List.getElem_mem _
    have hd := Real.hasDerivAt_rpow_const (hok c.terms[k.1] hk)
    rw [← hinp _ hk] at hd
    have := hd.comp_hasFDerivAt (slots c.ins inp)
      (hasFDerivAt_input c.ins c.terms[k.1].1 i (slots c.ins inp))
    rw [← hinp _ hk]
    exact this
  have hprod := (HasFDerivAt.finsetProd (u := Finset.univ) fun k _ => hg k).const_mul (c.coeff.at i)
  refine ⟨_, hprod.congr_of_eventuallyEq (Filter.Eventually.of_forall fun y => ?_), ?_⟩
  · simp only [Pow.value, ← Fin.prod_univ_fun_getElem]
    rfl
  · intro v
    rw [← Fin.sum_univ_fun_getElem]
    simp only [smul_apply, sum_apply, smul_eq_mul]
    rw [Finset.mul_sum]
    apply Finset.sum_congr rfl
    intro k _
    rw [inputL_apply, pow_deriv, ← Fin.prod_univ_fun_getElem]
    have hsplit : ∀ f : Fin m → ℝ, ∏ j, f j = f k * ∏ j ∈ Finset.univ.erase k, f j := fun f =>
      (Finset.mul_prod_erase Finset.univ f (Finset.mem_univ k)).symm
    rw [hsplit]
    have herase : ∏ j ∈ Finset.univ.erase k,
          ((if c.terms[k.1].1 = c.terms[j.1].1 then c.terms[j.1].2.at i else 1) *
            (inp c.terms[j.1].1 i : ℝ) ^
              ((if c.terms[k.1].1 = c.terms[j.1].1 then c.terms[j.1].2.at i - 1
                else c.terms[j.1].2.at i) : ℝ)) =
        ∏ j ∈ Finset.univ.erase k, (inputsOf c.ins (slots c.ins inp) c.terms[j.1].1 i : ℝ) ^
          (c.terms[j.1].2.at i : ℝ) := by
      apply Finset.prod_congr rfl
      intro j hj
      have hne : c.terms[k.1].1 ≠ c.terms[j.1].1 := by
        intro he
        have h1 : (c.terms.map Prod.fst)[k.1]'(by simp [m]) =
            (c.terms.map Prod.fst)[j.1]'(by simp [m]) := by simpa using he
        exact (Finset.mem_erase.1 hj).1 (Fin.ext ((List.Nodup.getElem_inj_iff hn).1 h1)).symm
      rw [if_neg hne, if_neg hne, one_mul]
      rw [hinp _ (List.getElem_mem _)]
    rw [herase, if_pos rfl, if_pos rfl]
    ring

/-- All exponents are numbers. -/
def NumPowers (c : Pow) : Prop := ∀ t ∈ c.terms, ∃ p, t.2 = .num p

/-- `compute` as a total function (arbitrary where it raises). -/
noncomputable def Pow.total (c : Pow) (inp : String → Nat → ℝ) : Nat → ℝ :=
  match c.compute inp with
  | .ok r => r
  | .error _ => fun _ => 0

theorem passes_of_ok {c : Pow} (hnum : NumPowers c) {inp : String → Nat → ℝ}
    (hok : ∀ t ∈ c.terms, ∀ i < c.size, inp t.1 i ≠ 0 ∨ 1 ≤ t.2.at i) :
    ∀ t ∈ c.terms, Passes c inp t := by
  rintro t ht ⟨i, hi, h0⟩
  obtain ⟨p, hp⟩ := hnum t ht
  have := hok t ht i hi
  rw [hp] at this ⊢
  have h1 : 1 ≤ p := by
    rcases this with h | h
    · exact absurd h0 h
    · exact h
  simp only [zeroCheck]
  rw [if_neg (by linarith)]

theorem pow_exact {c : Pow} (hn : (c.terms.map Prod.fst).Nodup)
    {inp : String → Nat → ℝ}
    (hnum : ∀ t ∈ c.terms, (∃ p, t.2 = .num p) ∨ ∀ i < c.size, inp t.1 i ≠ 0)
    (partials : String → Coo)
    (hok : ∀ t ∈ c.terms, ∀ i < c.size, inp t.1 i ≠ 0 ∨ 1 ≤ t.2.at i)
    (hpart : ∀ t ∈ c.terms, partials t.1 =
      ⟨List.range c.size, List.range c.size, (List.range c.size).map (c.deriv inp t.1)⟩) :
    ExactPartials c.ins c.size c.total partials inp := by
  have hins : (c.ins.map Prod.fst).Nodup := by
    rw [Pow.ins, List.map_map]; exact hn
  choose L hL1 hL2 using fun i : Fin c.size =>
    hasFDerivAt_value hn (inp := inp) i.2 (fun t ht => hok t ht i i.2)
  have hev : ∀ᶠ y in nhds (slots c.ins inp), ∀ t ∈ c.terms, Passes c (inputsOf c.ins y) t := by
    refine eventually_list fun t ht => ?_
    have hall : (∀ i < c.size, inp t.1 i ≠ 0) →
        ∀ᶠ y in nhds (slots c.ins inp), Passes c (inputsOf c.ins y) t := by
      intro hne
      have hall : ∀ᶠ y in nhds (slots c.ins inp), ∀ i ∈ List.range c.size,
          inputsOf c.ins y t.1 i ≠ 0 := by
        refine eventually_list fun i hi => ?_
        have hi' := List.mem_range.1 hi
        have h0 : inputsOf c.ins (slots c.ins inp) t.1 i ≠ 0 := by
          rw [inputsOf_slots hins inp (List.mem_map.2 ⟨t, ht, rfl⟩) hi']
          exact hne i hi'
        exact (hasFDerivAt_input c.ins t.1 i (slots c.ins inp)).continuousAt.eventually_ne h0
      filter_upwards [hall] with y hy
      rintro ⟨i, hi, h0⟩
      exact absurd h0 (hy i (List.mem_range.2 hi))
    rcases hnum t ht with ⟨p, hp⟩ | hne
    swap
    · exact hall hne
    by_cases hneg : p < 0
    · refine hall fun i hi' => ?_
      rcases hok t ht i hi' with h | h
      · exact h
      · rw [hp] at h
        simp only [Power.at] at h
        linarith
    · refine Filter.Eventually.of_forall fun y _ => ?_
      rw [hp, zeroCheck, if_neg hneg]
  refine exactPartials_of hins ?_ ?_ L ?_ ?_
  · intro p hp'
    obtain ⟨t, ht, rfl⟩ := List.mem_map.1 hp'
    rw [hpart t ht]; simp
  · intro p hp'
    obtain ⟨t, ht, rfl⟩ := List.mem_map.1 hp'
    rw [hpart t ht]; simp
  · intro i
    refine (hL1 i).congr_of_eventuallyEq ?_
    filter_upwards [hev] with y hy
    simp only [Pow.total, pow_compute hy]
  · intro i v
    rw [hL2]
    generalize inputsOf c.ins v = w
    rw [Pow.ins, List.map_map]
    congr 1
    apply List.map_congr_left
    intro t ht
    simp only [Function.comp_apply, hpart t ht, Coo.apply]
    rw [cooApply_diag (by simp) _ i.2]
    simp [List.getD_eq_getElem?_getD]

end OM
