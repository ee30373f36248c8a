import Verif.Lemmas.Extremum
import Verif.Spec.Extremum

/-! # Smooth maximum and minimum (C31, C32, C33) -/

namespace OM
open Spec

theorem smooth_ks (lower : Bool) {rho : ℝ} (hr : 0 < rho) (m : ℝ) (l : List ℝ) :
    Smooth lower rho l (signed lower (ks rho m (l.map (signed lower)))) := by
  cases lower with
  | false =>
    have hid : l.map (signed false) = l := by
      conv_rhs => rw [← List.map_id l]
      exact List.map_congr_left fun a _ => by simp [signed]
    rintro M ⟨hM, hub⟩
    rw [hid]
    exact ⟨le_ks hr m hM, ks_le hr m (List.ne_nil_of_mem hM) fun g hg => hub hg⟩
  | true =>
    rintro M ⟨hM, hlb⟩
    have hmem : -M ∈ l.map (signed true) := List.mem_map.2 ⟨M, hM, by simp [signed]⟩
    have h1 := le_ks hr m hmem
    have h2 := ks_le hr m (List.ne_nil_of_mem hmem) (M := -M) (by
      intro g hg
      obtain ⟨a, ha, rfl⟩ := List.mem_map.1 hg
      have := hlb ha
      simp [signed]
      exact this)
    rw [List.length_map] at h2
    simp only [signed, if_true] at h1 h2 ⊢
    exact ⟨by linarith, by linarith⟩

/-! ## Elementwise form -/

theorem foldl_add_exp {ι : Type} (l : List ι) (f : ι → ℝ) (a : ℝ) :
    l.foldl (fun s n => s + f n) a = a + (l.map f).sum := by
  induction l generalizing a with
  | nil => simp
  | cons n l ih => rw [List.foldl_cons, ih]; simp [add_assoc]

theorem elem_arg (c : Elem) (inp : String → Nat → ℝ) (i : Nat) :
    c.arg inp i = (c.names.map fun n =>
      Real.exp (c.rho * (signed c.lower (inp n i) - c.fmax inp i))).sum := by
  unfold Elem.arg
  rw [foldl_add_exp c.names fun n => Real.exp (c.rho * (signed c.lower (inp n i) - c.fmax inp i))]
  simp

theorem elem_compute (c : Elem) (inp : String → Nat → ℝ) (i : Nat) :
    c.compute inp i = signed c.lower
      (ks c.rho (c.fmax inp i) (c.names.map fun n => signed c.lower (inp n i))) := by
  unfold Elem.compute ks
  rw [elem_arg, List.map_map]
  rfl

/-- **C31**, elementwise form. -/
theorem c31_elementwise {c : Elem} (hr : 0 < c.rho) (inp : String → Nat → ℝ) (i : Nat) :
    Smooth c.lower c.rho (c.names.map fun n => inp n i) (c.compute inp i) := by
  rw [elem_compute]
  have := smooth_ks c.lower hr (c.fmax inp i) (c.names.map fun n => inp n i)
  rwa [List.map_map] at this

theorem elem_nodup {c : Elem} (hs : c.setup = .ok ()) : (c.ins.map Prod.fst).Nodup := by
  unfold Elem.setup at hs
  split at hs
  · rename_i h
    rw [Elem.ins, List.map_map]; simpa [Function.comp_def] using h
  · cases hs

theorem elem_partials {c : Elem} {n : String} (h : n ∈ c.names) (inp : String → Nat → ℝ) :
    c.partials inp n = ⟨List.range c.size, List.range c.size, (List.range c.size).map fun i =>
      Real.exp (c.rho * (signed c.lower (inp n i) - c.fmax inp i)) / (c.names.map fun n =>
      Real.exp (c.rho * (signed c.lower (inp n i) - c.fmax inp i))).sum⟩ := by
  simp only [Elem.partials, h, if_true, elem_arg]
  congr 1
  apply List.map_congr_left
  intro i _
  ring

theorem elem_fmax_congr {c : Elem} (h0 : c.names ≠ []) {inp inp' : String → Nat → ℝ} {i : Nat}
    (h : ∀ n ∈ c.names, inp n i = inp' n i) : c.fmax inp i = c.fmax inp' i := by
  unfold Elem.fmax
  obtain ⟨n, ns, hns⟩ : ∃ n ns, c.names = n :: ns := List.exists_cons_of_ne_nil h0
  have hhd : c.names.headD "" ∈ c.names := by simp [hns]
  rw [h _ hhd]
  refine List.foldl_ext _ _ _ fun a n hn => ?_
  rw [h n hn]

/-- **C32**, elementwise form: exact at every point, non-negative, adding up to one. -/
theorem c32_elementwise {c : Elem} (hs : c.setup = .ok ()) (h0 : c.names ≠ []) (hr : 0 < c.rho)
    (inp : String → Nat → ℝ) :
    ExactPartials c.ins c.size c.compute (c.partials inp) inp ∧
    Convex c.ins c.size (c.partials inp) := by
  have hn := elem_nodup hs
  have hinp : ∀ n ∈ c.names, ∀ i < c.size, inputsOf c.ins (slots c.ins inp) n i = inp n i :=
    fun n hnm i hi => inputsOf_slots hn inp (List.mem_map.2 ⟨n, hnm, rfl⟩) hi
  have hcols : ∀ p ∈ c.ins, ∀ k ∈ ((c.partials inp) p.1).cols, k < p.2 := by
    intro p hp
    obtain ⟨n, hnm, rfl⟩ := List.mem_map.1 hp
    rw [elem_partials hnm]; simp
  have hrows : ∀ p ∈ c.ins, ∀ k ∈ ((c.partials inp) p.1).rows, k < c.size := by
    intro p hp
    obtain ⟨n, hnm, rfl⟩ := List.mem_map.1 hp
    rw [elem_partials hnm]; simp
  have happ : ∀ (w : String → Nat → ℝ) (i : Nat), i < c.size →
      (c.ins.map fun p => ((c.partials inp) p.1).apply (w p.1) i).sum =
      (c.names.map fun n => Real.exp (c.rho * (signed c.lower (inp n i) - c.fmax inp i)) /
        (c.names.map fun n => Real.exp (c.rho * (signed c.lower (inp n i) - c.fmax inp i))).sum *
          w n i).sum := by
    intro w i hi
    rw [Elem.ins, List.map_map]
    congr 1
    apply List.map_congr_left
    intro n hnm
    simp only [Function.comp_apply, elem_partials hnm, Coo.apply]
    rw [cooApply_diag (by simp) _ hi]
    simp [List.getD_eq_getElem?_getD, hi]
  refine ⟨?_, ?_, ?_⟩
  · choose L h1 h2 using fun i : Fin c.size => hasFDerivAt_ks h0 hr.ne' c.lower
      (u := fun n (y : Slot c.ins → ℝ) => inputsOf c.ins y n i) (U := fun n => inputL c.ins n i)
      (x := slots c.ins inp) (fun n _ => hasFDerivAt_input c.ins n i _)
      (fun y => c.fmax (inputsOf c.ins y) i)
    refine exactPartials_of hn hcols hrows L ?_ ?_
    · intro i
      refine (h1 i).congr_of_eventuallyEq (Filter.Eventually.of_forall fun y => ?_)
      exact elem_compute _ _ _
    · intro i v
      rw [h2, happ _ i i.2]
      have hf : c.fmax (inputsOf c.ins (slots c.ins inp)) i = c.fmax inp i :=
        elem_fmax_congr h0 fun n hnm => hinp n hnm i i.2
      have hden : (c.names.map fun b => Real.exp (c.rho * (signed c.lower
            (inputsOf c.ins (slots c.ins inp) b i) - c.fmax inp i))) =
          c.names.map fun n => Real.exp (c.rho * (signed c.lower (inp n i) - c.fmax inp i)) :=
        List.map_congr_left fun n hnm => by rw [hinp n hnm i i.2]
      rw [hf, hden]
      congr 1
      apply List.map_congr_left
      intro n hnm
      rw [hinp n hnm i i.2, inputL_apply]
  · intro s i
    apply entry_nonneg
    have hnm : c.ins[s.1].1 ∈ c.names := by
      have := List.getElem_mem (l := c.ins) s.1.2
      obtain ⟨n, hnm, he⟩ := List.mem_map.1 this
      have : c.ins[s.1].1 = n := by
        change (c.ins[s.1.1]).1 = n
        rw [← he]
      rw [this]; exact hnm
    rw [elem_partials hnm]
    intro v hv
    obtain ⟨k, _, rfl⟩ := List.mem_map.1 hv
    exact div_nonneg (Real.exp_pos _).le (sum_exp_pos h0 _).le
  · intro i hi
    have := sum_slots hn hcols (slots c.ins fun _ _ => 1) i
    rw [happ _ i hi] at this
    simp only [slots, mul_one] at this
    rw [this]
    refine Eq.trans ?_ (weights_sum h0 fun n => c.rho * (signed c.lower (inp n i) - c.fmax inp i))
    congr 1
    apply List.map_congr_left
    intro n hnm
    have h1 : inputsOf c.ins (slots c.ins fun _ _ => 1) n i = 1 :=
      inputsOf_slots hn _ (List.mem_map.2 ⟨n, hnm, rfl⟩) hi
    rw [h1, mul_one]

/-! ## Axis-wise and scalar forms -/

theorem ks_result (c : Ks) (inp : String → Nat → ℝ) (r : Nat) :
    c.result inp r = signed c.lower
      (ks c.rho (c.gmax inp r) ((c.group r).map fun k => signed c.lower (inp c.name k))) := by
  unfold Ks.result ks Ks.summation
  rw [List.map_map]
  congr 5
  apply List.map_congr_left
  intro k hk
  have : c.row k = r := by simpa using (List.mem_filter.1 hk).2
  simp [Ks.exponent, this]

/-- The values that are reduced to one output, by multi-index. -/
def Ks.values (c : Ks) (inp : String → Nat → ℝ) (j : List Nat) : List ℝ :=
  match c.axis with
  | some a => fibreValues c.shape [a] (inp c.name) j
  | none => (List.range c.size).map (inp c.name)

theorem ks_group_map {c : Ks} (inp : String → Nat → ℝ) {j : List Nat} (hj : InBounds c.outShape j) :
    (c.group (ravel c.outShape j)).map (inp c.name) = c.values inp j := by
  unfold Ks.values
  cases hax : c.axis with
  | some a =>
    have ho : c.outShape = npDelete [a] c.shape := by rw [Ks.outShape, hax, npDelete_single]
    rw [ho] at hj ⊢
    simp only
    rw [← map_redGroup hj]
    unfold Ks.group Ks.row redGroup
    rw [hax]
    rfl
  | none =>
    have ho : c.outShape = [1] := by rw [Ks.outShape, hax]
    have hz : ravel c.outShape j = 0 := by
      rw [ho] at hj ⊢
      have := ravel_lt hj
      simpa [prodShape] using this
    rw [hz]
    simp [Ks.group, Ks.row, hax]

/-- **C31**, axis-wise and scalar forms. -/
theorem c31_reduction {c : Ks} (hr : 0 < c.rho) (inp : String → Nat → ℝ) {j : List Nat}
    (hj : InBounds c.outShape j) :
    Smooth c.lower c.rho (c.values inp j) (c.result inp (ravel c.outShape j)) := by
  rw [ks_result, ← ks_group_map inp hj]
  have := smooth_ks c.lower hr (c.gmax inp (ravel c.outShape j))
    ((c.group (ravel c.outShape j)).map (inp c.name))
  rwa [List.map_map] at this

theorem ks_group_ne {c : Ks} (hp : ∀ n ∈ c.shape, 0 < n) {r : Nat} (hr : r < prodShape c.outShape) :
    c.group r ≠ [] := by
  cases hax : c.axis with
  | some a =>
    have ho : c.outShape = npDelete [a] c.shape := by rw [Ks.outShape, hax, npDelete_single]
    have := redGroup_ne_nil (axes := [a]) hp (by rwa [ho] at hr)
    unfold Ks.group Ks.row
    rw [hax]
    exact this
  | none =>
    have ho : c.outShape = [1] := by rw [Ks.outShape, hax]
    have hz : r = 0 := by simpa [ho, prodShape] using hr
    have hpos : 0 < c.size := by
      unfold Ks.size prodShape
      exact List.prod_pos fun n hn => hp n hn
    simp [Ks.group, Ks.row, hax, hz]
    omega

theorem ks_row_lt (c : Ks) {k : Nat} (h : k < c.size) : c.row k < prodShape c.outShape := by
  cases hax : c.axis with
  | some a =>
    have ho : c.outShape = npDelete [a] c.shape := by rw [Ks.outShape, hax, npDelete_single]
    rw [ho]
    unfold Ks.row
    rw [hax]
    exact redRow_lt h
  | none => simp [Ks.row, Ks.outShape, hax, prodShape]

theorem ks_dKS {c : Ks} (hr : c.rho ≠ 0) (inp : String → Nat → ℝ) {r k : Nat} (hk : k ∈ c.group r) :
    c.dKS inp k = Real.exp (c.rho * (signed c.lower (inp c.name k) - c.gmax inp r)) /
      ((c.group r).map fun b => Real.exp (c.rho * (signed c.lower (inp c.name b) - c.gmax inp r))).sum := by
  have hrow : ∀ b ∈ c.group r, c.row b = r := fun b hb => by simpa using (List.mem_filter.1 hb).2
  have hsum : c.summation inp (c.row k) =
      ((c.group r).map fun b => Real.exp (c.rho * (signed c.lower (inp c.name b) - c.gmax inp r))).sum := by
    rw [hrow k hk]
    unfold Ks.summation
    congr 1
    apply List.map_congr_left
    intro b hb
    simp only [Ks.exponent, hrow b hb]
  have hpos : ((c.group r).map fun b =>
      Real.exp (c.rho * (signed c.lower (inp c.name b) - c.gmax inp r))).sum ≠ 0 :=
    (sum_exp_pos (List.ne_nil_of_mem hk) _).ne'
  unfold Ks.dKS
  rw [hsum, Ks.exponent, hrow k hk]
  field_simp

/-- **C32**, axis-wise and scalar forms: the derivatives computed by `compute` at a point are exact there,
non-negative, and add up to one for each output. -/
theorem c32_reduction {c : Ks} (hp : ∀ n ∈ c.shape, 0 < n) (hr : 0 < c.rho) (inp : String → Nat → ℝ) :
    ExactPartials [(c.name, c.size)] (prodShape c.outShape) c.result (c.coo (c.dKS inp)) inp ∧
    Convex [(c.name, c.size)] (prodShape c.outShape) (c.coo (c.dKS inp)) := by
  have hn : ([(c.name, c.size)].map Prod.fst).Nodup := by simp
  have hinp : ∀ k < c.size, inputsOf [(c.name, c.size)] (slots [(c.name, c.size)] inp) c.name k =
      inp c.name k := fun k hk => inputsOf_slots hn inp (List.mem_singleton.2 rfl) hk
  have hlt : ∀ r, ∀ k ∈ c.group r, k < c.size := fun r k hk => List.mem_range.1 (List.mem_filter.1 hk).1
  have hex : ExactPartials [(c.name, c.size)] (prodShape c.outShape) c.result (c.coo (c.dKS inp)) inp := by
    refine reduce_exact (row := c.row) (d := c.dKS inp) (fun k hk => ks_row_lt c hk)
      (by simp [Ks.coo]) fun r hrr => ?_
    obtain ⟨L, h1, h2⟩ := hasFDerivAt_ks (ks_group_ne hp hrr) hr.ne' c.lower
      (u := fun k (y : Slot [(c.name, c.size)] → ℝ) => inputsOf [(c.name, c.size)] y c.name k)
      (U := fun k => inputL [(c.name, c.size)] c.name k)
      (x := slots [(c.name, c.size)] inp) (fun k _ => hasFDerivAt_input [(c.name, c.size)] c.name k _)
      (fun y => c.gmax (inputsOf [(c.name, c.size)] y) r)
    refine ⟨L, h1.congr_of_eventuallyEq (Filter.Eventually.of_forall fun y => ks_result _ _ _), ?_⟩
    intro v
    rw [h2]
    have hg : c.gmax (inputsOf [(c.name, c.size)] (slots [(c.name, c.size)] inp)) r = c.gmax inp r := by
      unfold Ks.gmax
      congr 1
      exact List.map_congr_left fun k hk => by rw [hinp k (hlt r k hk)]
    rw [hg]
    have hden : ((c.group r).map fun b => Real.exp (c.rho * (signed c.lower
          (inputsOf [(c.name, c.size)] (slots [(c.name, c.size)] inp) c.name b) - c.gmax inp r))) =
        (c.group r).map fun b => Real.exp (c.rho * (signed c.lower (inp c.name b) - c.gmax inp r)) :=
      List.map_congr_left fun k hk => by rw [hinp k (hlt r k hk)]
    rw [hden]
    change ((c.group r).map _).sum = ((c.group r).map _).sum
    congr 1
    apply List.map_congr_left
    intro k hk
    rw [hinp k (hlt r k hk), inputL_apply, ← ks_dKS hr.ne' inp hk]
  refine ⟨hex, ?_, ?_⟩
  · intro s i
    apply entry_nonneg
    have hnm : [(c.name, c.size)][s.1].1 = c.name :=
      congrArg Prod.fst (List.mem_singleton.1 (List.getElem_mem s.1.2))
    rw [hnm]
    simp only [Ks.coo, if_true]
    intro v hv
    obtain ⟨k, hk, rfl⟩ := List.mem_map.1 hv
    have hmem : k ∈ c.group (c.row k) := by
      unfold Ks.group
      simpa using hk
    rw [ks_dKS hr.ne' inp hmem]
    exact div_nonneg (Real.exp_pos _).le (sum_exp_pos (List.ne_nil_of_mem hmem) _).le
  · intro r hrr
    have := sum_slots hn hex.cols (slots [(c.name, c.size)] fun _ _ => 1) r
    simp only [slots, mul_one] at this
    rw [this]
    simp only [List.map_cons, List.map_nil, List.sum_cons, List.sum_nil, add_zero, Ks.coo, if_true,
      Coo.apply]
    rw [cooApply_cols]
    refine Eq.trans ?_ (weights_sum (ks_group_ne hp hrr)
      fun k => c.rho * (signed c.lower (inp c.name k) - c.gmax inp r))
    change ((c.group r).map _).sum = ((c.group r).map _).sum
    congr 1
    apply List.map_congr_left
    intro k hk
    have h1 : inputsOf [(c.name, c.size)] (slots [(c.name, c.size)] fun _ _ => 1) c.name k = 1 :=
      inputsOf_slots hn _ (List.mem_singleton.2 rfl) (hlt r k hk)
    rw [h1, mul_one, ks_dKS hr.ne' inp hk]

/-! ## What `max` and `min` make of their arguments -/

/-- The elementwise form is used for two or more operands of equal shape, the axis-wise form for one
operand and an axis, the scalar form for one operand alone. -/
theorem c31_forms (lower : Bool) (rho : ℝ) {n m : String} {shape : List Nat} :
    (∀ ops : List (String × List Nat), (∀ p ∈ ops, p.2 = shape) →
      stdExtremum lower ((n, shape) :: (m, shape) :: ops) none rho =
        .ok (.elem ⟨n :: m :: ops.map Prod.fst, prodShape shape, rho, lower⟩)) ∧
    (∀ a : Nat, a < shape.length → stdExtremum lower [(n, shape)] (some a) rho =
      .ok (.ks ⟨n, shape, some a, rho, lower⟩)) ∧
    (∀ a : Nat, a < shape.length → stdExtremum lower [(n, shape)] (some (a - shape.length)) rho =
      .ok (.ks ⟨n, shape, some a, rho, lower⟩)) ∧
    stdExtremum lower [(n, shape)] none rho = .ok (.ks ⟨n, shape, none, rho, lower⟩) := by
  refine ⟨?_, ?_, ?_, rfl⟩
  · intro ops h
    simp only [stdExtremum]
    rw [if_neg (by simp), if_pos (by simpa using fun a b hab => h (a, b) hab)]
    rfl
  · intro a ha
    simp [stdExtremum, normAxis, ha]
  · intro a ha
    have h1 : ¬ (0 ≤ (a : Int) - shape.length ∧ (a : Int) - shape.length < shape.length) := by omega
    have h2 : (a : Int) - shape.length < 0 ∧ 0 ≤ (a : Int) - shape.length + shape.length := by omega
    simp only [stdExtremum, normAxis]
    rw [if_neg h1, if_pos h2]
    simp

/-- Everything else is refused: no operands, several operands and an axis, operands of different shapes, an
axis the operand does not have. -/
theorem c31_refused (lower : Bool) (rho : ℝ) {n m : String} {shape shape' : List Nat} :
    (∀ axis, ∃ e, stdExtremum lower [] axis rho = .error e) ∧
    (∀ a ops, ∃ e, stdExtremum lower ((n, shape) :: (m, shape') :: ops) (some a) rho = .error e) ∧
    (∀ ops : List (String × List Nat), (∃ p ∈ ops, ∃ q ∈ ops, p.2 ≠ q.2) → ∀ axis,
      ∃ e, stdExtremum lower ops axis rho = .error e) ∧
    (∀ a : Int, a < -shape.length ∨ shape.length ≤ a →
      ∃ e, stdExtremum lower [(n, shape)] (some a) rho = .error e) := by
  refine ⟨fun axis => ?_, fun a ops => ⟨_, rfl⟩, ?_, ?_⟩
  · cases axis <;> exact ⟨_, rfl⟩
  · rintro ops ⟨p, hp, q, hq, hpq⟩ axis
    match ops, axis with
    | [], _ => simp at hp
    | [r], _ =>
      obtain rfl := List.mem_singleton.1 hp
      obtain rfl := List.mem_singleton.1 hq
      exact absurd rfl hpq
    | r :: r' :: ops, some a => exact ⟨_, rfl⟩
    | r :: r' :: ops, none =>
      refine ⟨.exception, ?_⟩
      obtain ⟨rn, rs⟩ := r
      simp only [stdExtremum]
      rw [if_neg (by simp), if_neg]
      intro hall
      have hany : ∀ x ∈ (rn, rs) :: r' :: ops, x.2 = rs := by
        intro x hx
        rcases List.mem_cons.1 hx with rfl | hx
        · rfl
        · exact hall x hx
      exact hpq ((hany p hp).trans (hany q hq).symm)
  · intro a ha
    have h1 : ¬ (0 ≤ a ∧ a < shape.length) := by omega
    have h2 : ¬ (a < 0 ∧ 0 ≤ a + shape.length) := by omega
    refine ⟨.indexError, ?_⟩
    simp only [stdExtremum, normAxis]
    rw [if_neg h1, if_neg h2]

/-- Operands of different shapes. -/
example : ∃ e, stdExtremum false [("x", [2]), ("y", [3])] none 20 = .error e :=
  (c31_refused false 20 (n := "x") (m := "y") (shape := [2]) (shape' := [3])).2.2.1 _
    ⟨("x", [2]), by simp, ("y", [3]), by simp, by simp⟩ _

/-- The smooth maximum of `x` and `y`, and the smooth minimum of a 2×3 matrix along its first axis. -/
example :
    stdExtremum false [("x", [2]), ("y", [2])] none 20 = .ok (.elem ⟨["x", "y"], 2, 20, false⟩) ∧
    (⟨["x", "y"], 2, 20, false⟩ : Elem).setup = .ok () ∧
    stdExtremum true [("x", [2, 3])] (some (-2)) 20 = .ok (.ks ⟨"x", [2, 3], some 0, 20, true⟩) ∧
    InBounds (⟨"x", [2, 3], some 0, 20, true⟩ : Ks).outShape [2] ∧
    (⟨"x", [2, 3], some 0, 20, true⟩ : Ks).group 2 = [2, 5] := by
  refine ⟨?_, by simp [Elem.setup], ?_, ?_, by decide⟩
  · have := (c31_forms false 20 (n := "x") (m := "y") (shape := [2])).1 [] (by simp)
    exact this
  · have := (c31_forms true 20 (n := "x") (m := "y") (shape := [2, 3])).2.2.1 0 (by simp)
    simpa using this
  · exact .cons (by norm_num) .nil

/-! ## C33 -/

/-- The elementwise component has no state. -/
noncomputable def Elem.comp (c : Elem) : Stateful Unit where
  init := ()
  compute _ inp := (c.compute inp, ())
  partials _ inp := .ok (c.partials inp)

/-- **C33** holds for the elementwise form. -/
theorem c33_elementwise (c : Elem) : PointOnly c.comp := fun _ _ _ => rfl

theorem after_state {σ : Type} (c : Stateful (Option σ)) (f : (String → Nat → ℝ) → σ)
    (hf : ∀ s inp, (c.compute s inp).2 = some (f inp)) (hi : c.init = none) (h : List Call) :
    c.after h = (lastInputs h).map f := by
  have key : ∀ (h : List Call) (s : Option (String → Nat → ℝ)),
      h.foldl (fun s call => match call with
        | .compute inp => (c.compute s inp).2
        | .partials _ => s) (s.map f) =
      (h.foldl (fun l call => match call with
        | .compute inp => some inp
        | .partials _ => l) s).map f := by
    intro h
    induction h with
    | nil => intro s; rfl
    | cons a h ih =>
      intro s
      cases a with
      | compute inp =>
        simp only [List.foldl_cons]
        rw [hf]
        exact ih (some inp)
      | partials inp =>
        simp only [List.foldl_cons]
        exact ih s
  have := key h none
  unfold Stateful.after lastInputs
  rw [hi]
  exact this

/-- The code violates **C33** for the axis-wise and scalar forms, exactly: the derivatives are those at the
inputs of the last evaluation, whatever inputs they are asked for; before any evaluation there are none. -/
theorem c33_reduction_stale (c : Ks) (h : List Call) (inp : String → Nat → ℝ) :
    c.comp.partials (c.comp.after h) inp =
      match lastInputs h with
      | none => .error .attributeError
      | some x => .ok (c.coo (c.dKS x)) := by
  rw [after_state c.comp c.dKS (fun _ _ => rfl) rfl]
  cases lastInputs h <;> rfl

/-- **C33**, what holds: if the last evaluation was at the same inputs, the derivatives are those at these
inputs. -/
theorem c33_reduction_partial {c : Ks} (hp : ∀ n ∈ c.shape, 0 < n) (hr : 0 < c.rho) {h : List Call}
    {inp : String → Nat → ℝ} (hl : lastInputs h = some inp) :
    ∃ P, c.comp.partials (c.comp.after h) inp = .ok P ∧
      ExactPartials [(c.name, c.size)] (prodShape c.outShape) c.result P inp := by
  refine ⟨_, ?_, (c32_reduction hp hr inp).1⟩
  rw [c33_reduction_stale, hl]

/-- A sum in which one term differs. -/
theorem sum_ite_eq {k : Nat} {l : List Nat} (hn : l.Nodup) (hk : k ∈ l) (e e' : ℝ) :
    (l.map fun b => if b = k then e else e').sum = e + (l.length - 1) * e' := by
  induction l with
  | nil => simp at hk
  | cons b l ih =>
    have hn' := List.nodup_cons.1 hn
    by_cases hb : b = k
    · subst hb
      have : (l.map fun x => if x = b then e else e') = l.map fun _ => e' :=
        List.map_congr_left fun x hx => if_neg (by rintro rfl; exact hn'.1 hx)
      simp [this]
    · have hk' : k ∈ l := by simpa [Ne.symm hb] using hk
      simp [hb, ih hn'.2 hk']
      ring

/-- The code violates **C33** for every smooth extremum that reduces two different entries to the same output: there are
two histories after which the derivatives at one point differ. -/
theorem c33_reduction_violated {c : Ks} (hr : 0 < c.rho) {k l : Nat} (hk : k < c.size) (hl : l < c.size) (hkl : k ≠ l)
    (hrow : c.row k = c.row l) : ¬ PointOnly c.comp := by
  intro h
  have := h [.compute fun _ _ => 0] [.compute fun _ b => signed c.lower (if b = k then 1 else 0)]
    fun _ _ => 0
  rw [c33_reduction_stale, c33_reduction_stale] at this
  have h2 := congrArg Coo.vals (congrFun (Except.ok.inj this) c.name)
  simp only [Ks.coo, if_true] at h2
  have h3 := (List.map_inj_left.1 h2) k (List.mem_range.2 hk)
  have hkg : k ∈ c.group (c.row k) := List.mem_filter.2 ⟨List.mem_range.2 hk, by simp⟩
  have hlg : l ∈ c.group (c.row k) := List.mem_filter.2 ⟨List.mem_range.2 hl, by simp [hrow]⟩
  have hnd : (c.group (c.row k)).Nodup := List.nodup_range.filter _
  have hlen : 2 ≤ (c.group (c.row k)).length := by
    have hsub : [k, l].length ≤ (c.group (c.row k)).length :=
      List.Subperm.length_le (List.subperm_of_subset (by simp [hkl]) (by
        intro x hx
        simp only [List.mem_cons, List.not_mem_nil, or_false] at hx
        rcases hx with rfl | rfl
        · exact hkg
        · exact hlg))
    simpa using hsub
  rw [ks_dKS hr.ne' _ hkg, ks_dKS hr.ne' _ hkg] at h3
  have hs0 : signed c.lower 0 = 0 := by cases c.lower <;> simp [signed]
  have hss : ∀ x, signed c.lower (signed c.lower x) = x := by intro x; cases c.lower <;> simp [signed]
  simp only [hs0, hss, if_true] at h3
  generalize c.gmax _ _ = M at h3
  generalize c.gmax _ _ = M' at h3
  have hone : (List.map (fun b => Real.exp (c.rho * ((if b = k then 1 else 0) - M'))) (c.group (c.row k))).sum =
      Real.exp (c.rho * (1 - M')) + ((c.group (c.row k)).length - 1) * Real.exp (c.rho * (0 - M')) := by
    rw [← sum_ite_eq hnd hkg]
    congr 1
    apply List.map_congr_left
    intro b _
    split <;> rfl
  rw [hone] at h3
  simp only [List.map_const', List.sum_replicate, nsmul_eq_mul] at h3
  have e0 := Real.exp_pos (c.rho * (0 - M))
  have e1 := Real.exp_pos (c.rho * (0 - M'))
  have e2 := Real.exp_pos (c.rho * (1 - M'))
  have hlt : Real.exp (c.rho * (0 - M')) < Real.exp (c.rho * (1 - M')) := Real.exp_lt_exp.2 (by nlinarith)
  have hL : (2 : ℝ) ≤ (c.group (c.row k)).length := by exact_mod_cast hlen
  generalize ((c.group (c.row k)).length : ℝ) = L at h3 hL
  rw [div_eq_div_iff (by positivity) (by nlinarith)] at h3
  have h4 : Real.exp (c.rho * (1 - M')) + (L - 1) * Real.exp (c.rho * (0 - M')) =
      Real.exp (c.rho * (1 - M')) * L := by
    have := mul_left_cancel₀ e0.ne' (h3.trans (by ring : _ = Real.exp (c.rho * (0 - M)) * (Real.exp (c.rho * (1 - M')) * L)))
    exact this
  nlinarith

/-- Two entries of a matrix in one column, for the maximum along the first axis. -/
example : ¬ PointOnly (⟨"x", [2, 3], some 0, 20, false⟩ : Ks).comp :=
  c33_reduction_violated (k := 1) (l := 4) (by norm_num) (by decide) (by decide) (by decide) (by decide)

/-- Not even computed once. -/
example (c : Ks) (inp : String → Nat → ℝ) :
    c.comp.partials (c.comp.after [.partials inp]) inp = .error .attributeError :=
  c33_reduction_stale c [.partials inp] inp

/-- A history that ends at the inputs asked for. -/
example (inp inp' : String → Nat → ℝ) :
    lastInputs [.compute inp', .partials inp', .compute inp, .partials inp'] = some inp := rfl

end OM
