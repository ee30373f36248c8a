import Verif.Model.IfElse
import Verif.Lemmas.Arith
import Verif.Props.Product

/-! # if_else (C47), outputs defined by an expression (C60) -/

namespace OM
open Spec

theorem IfElse.setup_ok {c : IfElse} (h : c.setup = .ok ()) :
    [c.cond, c.whenTrue, c.whenFalse].Nodup ∧ prodShape c.shape ≤ 1 := by
  unfold IfElse.setup at h
  split at h
  · cases h
  · rename_i h1
    split at h
    · cases h
    · rename_i h2
      refine ⟨not_not.1 h1, ?_⟩
      by_contra hgt
      exact h2 ⟨1, List.mem_range.2 (by omega), by simp [IfElse.outShape, prodShape]⟩

/-- **C47**, value, for expressions with one entry: the first branch where the condition is not negative, the
second where it is. Missing: arrays, for which the component cannot be set up (`c47_array`). -/
theorem c47_value_partial {cond t f : String × List Nat} {c : IfElse} (h : stdIfElse cond t f = .ok c)
    (hc : prodShape cond.2 = 1) (inp : String → Nat → ℝ) :
    ∃ v, c.compute inp = .ok v ∧ (0 ≤ inp cond.1 0 → v = inp t.1) ∧ (inp cond.1 0 < 0 → v = inp f.1) := by
  unfold stdIfElse at h
  split at h
  · cases h
  · obtain rfl := Except.ok.inj h
    refine ⟨_, if_neg (not_not.2 hc), fun h0 => if_neg (not_lt.2 h0), fun h0 => if_pos h0⟩

/-- The claim is false for arrays: the component cannot be set up. -/
theorem c47_array {cond t f : String × List Nat} {c : IfElse} (h : stdIfElse cond t f = .ok c)
    (hs : 1 < prodShape t.2) : ∃ e, c.setup = .error e := by
  cases hc : c.setup with
  | error e => exact ⟨e, rfl⟩
  | ok u =>
    exfalso
    have h1 := (IfElse.setup_ok hc).2
    unfold stdIfElse at h
    split at h
    · cases h
    · obtain rfl := Except.ok.inj h
      simp only at h1
      omega

/-- Nor is it set up if one expression is used twice. -/
theorem c47_same_expression {cond t f : String × List Nat} {c : IfElse} (h : stdIfElse cond t f = .ok c)
    (hs : cond.1 = t.1 ∨ cond.1 = f.1 ∨ t.1 = f.1) : c.setup = .error .valueError := by
  unfold stdIfElse at h
  split at h
  · cases h
  · obtain rfl := Except.ok.inj h
    refine if_pos ?_
    simp only [List.nodup_cons, List.mem_cons, List.not_mem_nil, or_false]
    rintro ⟨h1, h2, _⟩
    rcases hs with hs | hs | hs
    · exact h1 (.inl hs)
    · exact h1 (.inr hs)
    · exact h2 hs

/-- **C47**, what is accepted and set up: three different expressions, and branches of the same shape with at most
one entry. -/
theorem c47_accepted (cond t f : String × List Nat) :
    (∃ c, stdIfElse cond t f = .ok c ∧ c.setup = .ok ()) ↔
      cond.1 ≠ t.1 ∧ cond.1 ≠ f.1 ∧ t.1 ≠ f.1 ∧ t.2 = f.2 ∧ prodShape t.2 ≤ 1 := by
  have hrange : (∃ r ∈ List.range (prodShape t.2), prodShape [1] ≤ r) ↔ 1 < prodShape t.2 := by
    constructor
    · rintro ⟨r, h1, h2⟩
      have := List.mem_range.1 h1
      have : prodShape [1] = 1 := rfl
      omega
    · exact fun h => ⟨1, List.mem_range.2 h, le_refl _⟩
  unfold stdIfElse
  by_cases hs : t.2 = f.2
  · rw [if_neg (not_not.2 hs)]
    constructor
    · rintro ⟨c, h, hset⟩
      obtain rfl := Except.ok.inj h
      unfold IfElse.setup at hset
      split at hset
      · cases hset
      · rename_i hnd
        split at hset
        · cases hset
        · rename_i hr
          have hr : ¬ 1 < prodShape t.2 := fun h => hr (hrange.2 h)
          have hnd := not_not.1 hnd
          simp only [List.nodup_cons, List.mem_cons, List.not_mem_nil, or_false, not_or] at hnd
          exact ⟨hnd.1.1, hnd.1.2, hnd.2.1, hs, by omega⟩
    · rintro ⟨h1, h2, h3, -, h5⟩
      refine ⟨_, rfl, ?_⟩
      unfold IfElse.setup
      rw [if_neg (by simp [h1, h2, h3]), if_neg]
      exact fun h => absurd (hrange.1 h) (by omega)
  · rw [if_pos hs]
    constructor
    · rintro ⟨c, h, -⟩; cases h
    · rintro ⟨-, -, -, h, -⟩; exact absurd h hs

/-- A condition with several entries raises when the component runs. -/
theorem c47_array_condition {cond t f : String × List Nat} {c : IfElse} (h : stdIfElse cond t f = .ok c)
    (hc : 1 < prodShape cond.2) (inp : String → Nat → ℝ) :
    c.compute inp = .error .valueError ∧ c.partials inp = .error .valueError := by
  unfold stdIfElse at h
  split at h
  · cases h
  · obtain rfl := Except.ok.inj h
    exact ⟨if_pos (by simp only; omega), if_pos (by simp only; omega)⟩

/-- **C47**, derivatives: where the condition is not zero, the partials are exact if, and only if, the branch
taken has the value one: the value is handed over in place of its derivative, which is one. -/
theorem c47_partials_partial {cond t f : String × List Nat} {c : IfElse} (h : stdIfElse cond t f = .ok c)
    (hs : c.setup = .ok ()) (hc : prodShape cond.2 = 1) (ht : prodShape t.2 = 1) (inp : String → Nat → ℝ)
    (h0 : inp cond.1 0 ≠ 0) : ∃ v P, (∀ z, c.compute z = .ok (v z)) ∧ c.partials inp = .ok P ∧
      (ExactPartials c.ins 1 v P inp ↔ (if inp cond.1 0 < 0 then inp f.1 0 else inp t.1 0) = 1) := by
  have hnd := (IfElse.setup_ok hs).1
  unfold stdIfElse at h
  split at h
  · cases h
  · rename_i hsh
    obtain rfl := Except.ok.inj h
    obtain ⟨cn, csh⟩ := cond
    obtain ⟨tn, tsh⟩ := t
    obtain ⟨fn, fsh⟩ := f
    simp only at hc ht hnd h0 hsh
    simp only
    have hnames : (([(cn, 1), (tn, 1), (fn, 1)] : List (String × Nat)).map Prod.fst).Nodup := hnd
    have hct : cn ≠ tn := by simp at hnd; tauto
    have hcf : cn ≠ fn := by simp at hnd; tauto
    have htf : tn ≠ fn := by simp at hnd; tauto
    have hins : IfElse.ins ⟨cn, csh, tn, fn, tsh⟩ = [(cn, 1), (tn, 1), (fn, 1)] := by
      simp [IfElse.ins, hc, ht]
    refine ⟨fun z => if z cn 0 < 0 then z fn else z tn, _, fun z => if_neg (not_not.2 hc), if_neg (not_not.2 hc), ?_⟩
    rw [hins]
    simp only [ht, npFlat]
    have hlin : ∀ (n : String) (j : Nat), HasFDerivAt (fun y => inputsOf [(cn, 1), (tn, 1), (fn, 1)] y n j)
        (inputL _ n j) (slots [(cn, 1), (tn, 1), (fn, 1)] inp) := fun n j => hasFDerivAt_input _ n j _
    have hv := fun (w : String → Nat → ℝ) (n : String) (hm : (n, 1) ∈ [(cn, 1), (tn, 1), (fn, 1)]) =>
      inputsOf_slots hnames w hm (j := 0) (by decide)
    have hcs : inputsOf [(cn, 1), (tn, 1), (fn, 1)] (slots [(cn, 1), (tn, 1), (fn, 1)] inp) cn 0 = inp cn 0 :=
      hv inp cn (by simp)
    have hcont : ContinuousAt (fun y => inputsOf [(cn, 1), (tn, 1), (fn, 1)] y cn 0)
        (slots [(cn, 1), (tn, 1), (fn, 1)] inp) := (hlin cn 0).continuousAt
    rcases lt_or_gt_of_ne h0 with hneg | hpos
    · have hev : ∀ᶠ y in nhds (slots [(cn, 1), (tn, 1), (fn, 1)] inp),
          inputsOf [(cn, 1), (tn, 1), (fn, 1)] y cn 0 < 0 :=
        hcont.eventually (gt_mem_nhds (by simp only; rw [hcs]; exact hneg))
      have hL : HasFDerivAt (fun y => (if inputsOf [(cn, 1), (tn, 1), (fn, 1)] y cn 0 < 0 then
          inputsOf [(cn, 1), (tn, 1), (fn, 1)] y fn else inputsOf [(cn, 1), (tn, 1), (fn, 1)] y tn) 0)
          (inputL _ fn 0) (slots [(cn, 1), (tn, 1), (fn, 1)] inp) :=
        (hlin fn 0).congr_of_eventuallyEq (hev.mono fun y hy => by simp only; rw [if_pos hy])
      simp only [if_pos hneg]
      constructor
      · intro hex
        have e := exactPartials_action hnames hex (i := 0) (by decide) hL
          (slots [(cn, 1), (tn, 1), (fn, 1)] fun n _ => if n = fn then 1 else 0)
        rw [inputL_apply] at e
        have vf := hv (fun n _ => if n = fn then 1 else 0) fn (by simp)
        have vt := hv (fun n _ => if n = fn then 1 else 0) tn (by simp)
        simp only [if_true] at vf
        rw [if_neg htf] at vt
        generalize inputsOf [(cn, 1), (tn, 1), (fn, 1)] (slots [(cn, 1), (tn, 1), (fn, 1)]
          fun n _ => if n = fn then (1 : ℝ) else 0) = u at e vf vt
        simpa [hct, hcf, htf, htf.symm, Coo.apply, cooApply, vf, vt, eq_comm] using e
      · intro h1
        refine exactPartials_of hnames ?_ ?_ (fun _ => inputL _ fn 0) (fun i => ?_) ?_
        · intro p hp x hx
          simp only [List.mem_cons, List.not_mem_nil, or_false] at hp
          rcases hp with rfl | rfl | rfl <;> simp [hct, hcf, htf, htf.symm] at hx <;> omega
        · intro p hp x hx
          simp only [List.mem_cons, List.not_mem_nil, or_false] at hp
          rcases hp with rfl | rfl | rfl <;> simp [hct, hcf, htf, htf.symm] at hx <;> omega
        · have : i = 0 := Subsingleton.elim _ _
          subst this
          exact hL
        · intro i v
          have : i = 0 := Subsingleton.elim _ _
          subst this
          rw [inputL_apply]
          simp [hct, hcf, htf, htf.symm, Coo.apply, cooApply, h1]
    · have hev : ∀ᶠ y in nhds (slots [(cn, 1), (tn, 1), (fn, 1)] inp),
          0 < inputsOf [(cn, 1), (tn, 1), (fn, 1)] y cn 0 :=
        hcont.eventually (lt_mem_nhds (by simp only; rw [hcs]; exact hpos))
      have hL : HasFDerivAt (fun y => (if inputsOf [(cn, 1), (tn, 1), (fn, 1)] y cn 0 < 0 then
          inputsOf [(cn, 1), (tn, 1), (fn, 1)] y fn else inputsOf [(cn, 1), (tn, 1), (fn, 1)] y tn) 0)
          (inputL _ tn 0) (slots [(cn, 1), (tn, 1), (fn, 1)] inp) :=
        (hlin tn 0).congr_of_eventuallyEq (hev.mono fun y hy => by simp only; rw [if_neg hy.not_gt])
      simp only [if_neg hpos.not_gt]
      constructor
      · intro hex
        have e := exactPartials_action hnames hex (i := 0) (by decide) hL
          (slots [(cn, 1), (tn, 1), (fn, 1)] fun n _ => if n = tn then 1 else 0)
        rw [inputL_apply] at e
        have vt := hv (fun n _ => if n = tn then 1 else 0) tn (by simp)
        have vf := hv (fun n _ => if n = tn then 1 else 0) fn (by simp)
        simp only [if_true] at vt
        rw [if_neg htf.symm] at vf
        generalize inputsOf [(cn, 1), (tn, 1), (fn, 1)] (slots [(cn, 1), (tn, 1), (fn, 1)]
          fun n _ => if n = tn then (1 : ℝ) else 0) = u at e vf vt
        simpa [hct, hcf, htf, htf.symm, Coo.apply, cooApply, vf, vt, eq_comm] using e
      · intro h1
        refine exactPartials_of hnames ?_ ?_ (fun _ => inputL _ tn 0) (fun i => ?_) ?_
        · intro p hp x hx
          simp only [List.mem_cons, List.not_mem_nil, or_false] at hp
          rcases hp with rfl | rfl | rfl <;> simp [hct, hcf, htf, htf.symm] at hx <;> omega
        · intro p hp x hx
          simp only [List.mem_cons, List.not_mem_nil, or_false] at hp
          rcases hp with rfl | rfl | rfl <;> simp [hct, hcf, htf, htf.symm] at hx <;> omega
        · have : i = 0 := Subsingleton.elim _ _
          subst this
          exact hL
        · intro i v
          have : i = 0 := Subsingleton.elim _ _
          subst this
          rw [inputL_apply]
          simp [hct, hcf, htf, htf.symm, Coo.apply, cooApply, h1]

example : ∃ c, stdIfElse ("c", [1]) ("a", [1]) ("b", [1]) = .ok c ∧ c.setup = .ok () ∧
    prodShape [1] = 1 := ⟨_, rfl, by decide, rfl⟩

example : ∃ c, stdIfElse ("c", [2]) ("a", [2]) ("b", [2]) = .ok c ∧ 1 < prodShape [2] := ⟨_, rfl, by decide⟩

/-- So the claim is false: the derivative of `if_else(c, a, b)` at `c = 1, a = 3, b = 5` is handed over as 3. -/
theorem c47_wrong_partials : ∃ c v P, stdIfElse ("c", [1]) ("a", [1]) ("b", [1]) = .ok c ∧ c.setup = .ok () ∧
    (∀ z, c.compute z = .ok (v z)) ∧
    c.partials (fun n _ => if n = "c" then 1 else if n = "a" then 3 else 5) = .ok P ∧
    ¬ ExactPartials c.ins 1 v P (fun n _ => if n = "c" then 1 else if n = "a" then 3 else 5) := by
  obtain ⟨v, P, hv, hP, hiff⟩ := c47_partials_partial (cond := ("c", [1])) (t := ("a", [1])) (f := ("b", [1]))
    (c := ⟨"c", [1], "a", "b", [1]⟩) rfl (by decide) rfl rfl
    (fun n _ => if n = "c" then 1 else if n = "a" then 3 else 5) (by simp)
  refine ⟨_, v, P, rfl, by decide, hv, hP, fun h => ?_⟩
  have := hiff.1 h
  simp at this
  norm_num at this

/-! ## C60 -/

/-- **C60**: an output defined by an expression of its own shape has the values and the shape of the
expression, and exact partials. Missing: expressions of another shape (`c60_shape`). -/
theorem c60_define_partial (c : PassThrough) (hs : c.exprShape = c.declared) (inp : String → Nat → ℝ) :
    c.outShape = c.declared ∧ c.compute inp = inp c.expr ∧
      ExactPartials c.ins (prodShape c.outShape) c.compute c.partials inp := by
  refine ⟨hs, rfl, exactPartials_affine (by simp [PassThrough.ins]) ?_ ?_ (fun _ => 0) ?_⟩
  · intro p hp x hx
    obtain rfl := List.mem_singleton.1 hp
    simpa [PassThrough.partials] using hx
  · intro p hp x hx
    simpa [PassThrough.partials, PassThrough.outShape] using hx
  · intro v i
    have hi : (i : Nat) < prodShape c.exprShape := i.2
    simp only [PassThrough.ins, List.map_cons, List.map_nil, List.sum_cons, List.sum_nil]
    rw [Coo.apply, PassThrough.partials, cooApply_diag (by simp) _ hi]
    simp [PassThrough.compute, List.getD_eq_getElem?_getD, hi, List.getElem?_replicate]

/-- The claim is false for an expression of another shape: nothing refuses it, and the output has the shape of
the expression in place of the one declared. -/
theorem c60_shape (c : PassThrough) (hs : c.exprShape ≠ c.declared) : c.outShape ≠ c.declared := hs

example : (⟨"y", [2], "x", [3]⟩ : PassThrough).exprShape ≠ (⟨"y", [2], "x", [3]⟩ : PassThrough).declared := by decide

end OM
