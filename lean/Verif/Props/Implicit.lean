import Verif.Model.Implicit
import Mathlib.Topology.Order.IntermediateValue
import Mathlib.Analysis.SpecificLimits.Basic
import Mathlib.Algebra.BigOperators.Group.Finset.Basic
import Mathlib.Algebra.BigOperators.Ring.Finset
import Mathlib.Tactic.Linarith
import Mathlib.Tactic.NormNum
import Mathlib.Tactic.Ring
import Mathlib.Tactic.FieldSimp

/-! # Bracketed implicit outputs (C48, C49) -/

namespace OM

/-! ## C48 -/

theorem uIcc_mid {a b : ℝ} : 0.5 * a + 0.5 * b ∈ Set.uIcc a b := by
  rcases le_total a b with h | h
  · rw [Set.uIcc_of_le h]; constructor <;> linarith
  · rw [Set.uIcc_of_ge h]; constructor <;> linarith

/-- **C48**, one step: if, inside the bracket, an entry of the residual depends on its own entry of the output only, a sign
change in the bracket is kept, the bracket stays inside the old one, and its width is halved. -/
theorem c48_step {f : Arr → Arr} {ρ : ℝ → ℝ} (s : Arr × Arr) (i : Nat)
    (hf : ∀ x, (∀ j, x j ∈ Set.uIcc (s.1 j) (s.2 j)) → f x i = ρ (x i)) (hs : 0 ≤ ρ (s.1 i) ∧ ρ (s.2 i) ≤ 0) :
    (0 ≤ ρ ((bisectStep f s).1 i) ∧ ρ ((bisectStep f s).2 i) ≤ 0) ∧
    Set.uIcc ((bisectStep f s).1 i) ((bisectStep f s).2 i) ⊆ Set.uIcc (s.1 i) (s.2 i) ∧
    |(bisectStep f s).1 i - (bisectStep f s).2 i| = |s.1 i - s.2 i| / 2 := by
  simp only [bisectStep, hf _ fun j => uIcc_mid]
  by_cases h : 0 ≤ ρ (0.5 * s.1 i + 0.5 * s.2 i)
  · rw [if_pos h, if_neg h.not_gt]
    refine ⟨⟨h, hs.2⟩, Set.uIcc_subset_uIcc uIcc_mid Set.right_mem_uIcc, ?_⟩
    rw [show 0.5 * s.1 i + 0.5 * s.2 i - s.2 i = (s.1 i - s.2 i) / 2 by ring, abs_div, abs_two]
  · rw [if_neg h, if_pos (not_le.1 h)]
    refine ⟨⟨hs.1, (not_le.1 h).le⟩, Set.uIcc_subset_uIcc Set.left_mem_uIcc uIcc_mid, ?_⟩
    rw [show s.1 i - (0.5 * s.1 i + 0.5 * s.2 i) = (s.1 i - s.2 i) / 2 by ring, abs_div, abs_two]

/-- **C48**, any residual: all trial values lie in the bracket the caller gave, and each step halves its width, whether or
not the residual changes sign. -/
theorem c48_inside (f : Arr → Arr) (x1 x2 : Arr) (k j : Nat) :
    let s := (bisectStep f)^[k] (bisectStart f x1 x2)
    Set.uIcc (s.1 j) (s.2 j) ⊆ Set.uIcc (x1 j) (x2 j) ∧ |s.1 j - s.2 j| = |x2 j - x1 j| / 2 ^ k ∧
      bisect f k x1 x2 j ∈ Set.uIcc (x1 j) (x2 j) := by
  have key : Set.uIcc (((bisectStep f)^[k] (bisectStart f x1 x2)).1 j) (((bisectStep f)^[k] (bisectStart f x1 x2)).2 j) ⊆
      Set.uIcc (x1 j) (x2 j) ∧ |((bisectStep f)^[k] (bisectStart f x1 x2)).1 j -
        ((bisectStep f)^[k] (bisectStart f x1 x2)).2 j| = |x2 j - x1 j| / 2 ^ k := by
    induction k with
    | zero =>
      simp only [Function.iterate_zero, id, bisectStart, pow_zero, div_one]
      by_cases h : f x2 j ≤ f x1 j
      · rw [if_pos h, if_pos h]
        exact ⟨subset_rfl, abs_sub_comm _ _⟩
      · rw [if_neg h, if_neg h]
        exact ⟨(Set.uIcc_comm _ _).subset, rfl⟩
    | succ k ih =>
      rw [Function.iterate_succ_apply']
      generalize (bisectStep f)^[k] (bisectStart f x1 x2) = s at ih
      obtain ⟨h2, h3⟩ := ih
      rw [pow_succ, ← div_div, ← h3]
      simp only [bisectStep]
      by_cases h : 0 ≤ f (fun i => 0.5 * s.1 i + 0.5 * s.2 i) j
      · rw [if_pos h, if_neg h.not_gt]
        refine ⟨(Set.uIcc_subset_uIcc uIcc_mid Set.right_mem_uIcc).trans h2, ?_⟩
        rw [show 0.5 * s.1 j + 0.5 * s.2 j - s.2 j = (s.1 j - s.2 j) / 2 by ring, abs_div, abs_two]
      · rw [if_neg h, if_pos (not_le.1 h)]
        refine ⟨(Set.uIcc_subset_uIcc Set.left_mem_uIcc uIcc_mid).trans h2, ?_⟩
        rw [show s.1 j - (0.5 * s.1 j + 0.5 * s.2 j) = (s.1 j - s.2 j) / 2 by ring, abs_div, abs_two]
  exact ⟨key.1, key.2, key.1 uIcc_mid⟩

/-- **C48**, all steps. The residual has to be elementwise inside the bracket only. -/
theorem c48_bracket {f : Arr → Arr} {ρ : ℝ → ℝ} (x1 x2 : Arr) (i : Nat)
    (hf : ∀ x, (∀ j, x j ∈ Set.uIcc (x1 j) (x2 j)) → f x i = ρ (x i)) (hs : ρ (x1 i) * ρ (x2 i) ≤ 0) (k : Nat) :
    let s := (bisectStep f)^[k] (bisectStart f x1 x2)
    (0 ≤ ρ (s.1 i) ∧ ρ (s.2 i) ≤ 0) ∧ Set.uIcc (s.1 i) (s.2 i) ⊆ Set.uIcc (x1 i) (x2 i) ∧
      |s.1 i - s.2 i| = |x2 i - x1 i| / 2 ^ k := by
  obtain ⟨h1, h2, -⟩ := c48_inside f x1 x2 k i
  refine ⟨?_, h1, h2⟩
  clear h1 h2
  induction k with
  | zero =>
    simp only [Function.iterate_zero, id, bisectStart, hf x1 fun j => Set.left_mem_uIcc, hf x2 fun j => Set.right_mem_uIcc]
    by_cases h : ρ (x2 i) ≤ ρ (x1 i)
    · rw [if_pos h, if_pos h]
      constructor <;> by_contra hn <;> nlinarith
    · rw [if_neg h, if_neg h]
      have h' := not_le.1 h
      constructor <;> by_contra hn <;> nlinarith
  | succ k ih =>
    rw [Function.iterate_succ_apply']
    exact (c48_step _ i (fun x hx => hf x fun j => (c48_inside f x1 x2 k j).1 (hx j)) ih).1

/-- **C48**, result: within `|x2 - x1| / 2 ^ (k + 1)` of a root that lies in the bracket. Missing: residuals an
entry of which depends on several entries of the output (`c48_coupled`). -/
theorem c48_root_partial {f : Arr → Arr} {ρ : ℝ → ℝ} (x1 x2 : Arr) (i : Nat)
    (hf : ∀ x, (∀ j, x j ∈ Set.uIcc (x1 j) (x2 j)) → f x i = ρ (x i))
    (hs : ρ (x1 i) * ρ (x2 i) ≤ 0) (hc : ContinuousOn ρ (Set.uIcc (x1 i) (x2 i))) (k : Nat) :
    ∃ z ∈ Set.uIcc (x1 i) (x2 i), ρ z = 0 ∧ |bisect f k x1 x2 i - z| ≤ |x2 i - x1 i| / 2 ^ (k + 1) := by
  obtain ⟨⟨hp, hn⟩, hsub, hw⟩ := c48_bracket x1 x2 i hf hs k
  simp only [bisect]
  generalize (bisectStep f)^[k] (bisectStart f x1 x2) = s at hp hn hsub hw
  obtain ⟨z, hz, h0⟩ := intermediate_value_uIcc (hc.mono hsub) (Set.mem_uIcc.2 (.inr ⟨hn, hp⟩))
  refine ⟨z, hsub hz, h0, ?_⟩
  rw [pow_succ, ← div_div, ← hw, abs_le]
  rcases Set.mem_uIcc.1 hz with ⟨ha, hb⟩ | ⟨ha, hb⟩
  · rw [abs_of_nonpos (by linarith)]
    constructor <;> linarith
  · rw [abs_of_nonneg (by linarith)]
    constructor <;> linarith

/-- The same for all entries below `N` at once. -/
theorem c48_roots {f : Arr → Arr} {ρ : Nat → ℝ → ℝ} (x1 x2 : Arr) (N : Nat)
    (hf : ∀ x, (∀ j, x j ∈ Set.uIcc (x1 j) (x2 j)) → ∀ i < N, f x i = ρ i (x i))
    (hs : ∀ i < N, ρ i (x1 i) * ρ i (x2 i) ≤ 0) (hc : ∀ i < N, ContinuousOn (ρ i) (Set.uIcc (x1 i) (x2 i))) (k : Nat) :
    ∃ z : Arr, (∀ j, z j ∈ Set.uIcc (x1 j) (x2 j)) ∧
      ∀ i < N, ρ i (z i) = 0 ∧ |bisect f k x1 x2 i - z i| ≤ |x2 i - x1 i| / 2 ^ (k + 1) := by
  have hz : ∀ i, ∃ z ∈ Set.uIcc (x1 i) (x2 i), i < N → ρ i z = 0 ∧ |bisect f k x1 x2 i - z| ≤ |x2 i - x1 i| / 2 ^ (k + 1) := by
    intro i
    by_cases hi : i < N
    · obtain ⟨z, h1, h2⟩ := c48_root_partial x1 x2 i (fun x hx => hf x hx i hi) (hs i hi) (hc i hi) k
      exact ⟨z, h1, fun _ => h2⟩
    · exact ⟨x1 i, Set.left_mem_uIcc, fun h => absurd h hi⟩
  choose z h1 h2 using hz
  exact ⟨z, h1, h2⟩

/-- If there is but one root in the bracket, the result tends to it as the number of steps grows. -/
theorem c48_converges {f : Arr → Arr} {ρ : ℝ → ℝ} (x1 x2 : Arr) (i : Nat)
    (hf : ∀ x, (∀ j, x j ∈ Set.uIcc (x1 j) (x2 j)) → f x i = ρ (x i))
    (hs : ρ (x1 i) * ρ (x2 i) ≤ 0) (hc : ContinuousOn ρ (Set.uIcc (x1 i) (x2 i))) {z : ℝ}
    (hz : ∀ z' ∈ Set.uIcc (x1 i) (x2 i), ρ z' = 0 → z' = z) :
    Filter.Tendsto (fun k => bisect f k x1 x2 i) Filter.atTop (nhds z) := by
  rw [tendsto_iff_dist_tendsto_zero]
  have hlim : Filter.Tendsto (fun k : ℕ => |x2 i - x1 i| / 2 ^ (k + 1)) Filter.atTop (nhds 0) := by
    have h := (tendsto_pow_atTop_nhds_zero_of_lt_one (r := (1 / 2 : ℝ)) (by norm_num) (by norm_num)).const_mul
      (|x2 i - x1 i| / 2)
    rw [mul_zero] at h
    refine h.congr fun k => ?_
    rw [one_div, inv_pow, pow_succ]
    field_simp
  refine squeeze_zero (fun _ => dist_nonneg) (fun k => ?_) hlim
  obtain ⟨z', hz', h0, hd⟩ := c48_root_partial x1 x2 i hf hs hc k
  rw [Real.dist_eq, ← hz z' hz' h0]
  exact hd

/-- With the bracket from 1 to 3, a residual that is elementwise there and not outside. -/
example : ∃ (f : Arr → Arr) (ρ : ℝ → ℝ) (x1 x2 : Arr), (∀ x, (∀ j, x j ∈ Set.uIcc (x1 j) (x2 j)) → f x 0 = ρ (x 0)) ∧
    ρ (x1 0) * ρ (x2 0) ≤ 0 ∧ ContinuousOn ρ (Set.uIcc (x1 0) (x2 0)) ∧ ¬ ∀ x, f x 0 = ρ (x 0) := by
  refine ⟨fun x _ => if 0 ≤ x 1 then x 0 ^ 2 - 2 else 7, fun x => x ^ 2 - 2, fun _ => 1, fun _ => 3, fun x hx => ?_, by norm_num,
    by fun_prop, fun h => ?_⟩
  · have := hx 1
    rw [Set.uIcc_of_le (by norm_num)] at this
    exact if_pos (by linarith [this.1])
  · have := h fun _ => -1
    norm_num at this

example : ∃ (ρ : Nat → ℝ → ℝ) (x1 x2 : Arr), ρ 0 (x1 0) * ρ 0 (x2 0) ≤ 0 ∧
    ContinuousOn (ρ 0) (Set.uIcc (x1 0) (x2 0)) :=
  ⟨fun _ x => x ^ 2 - 2, fun _ => 0, fun _ => 2, by norm_num, by fun_prop⟩

/-- The residual `(x₁ - 1/4, x₀ - 3/4)` -/
noncomputable def coupled (x : Arr) : Arr := fun i => if i = 0 then x 1 - 0.25 else x 0 - 0.75

theorem coupled_iterate (k : Nat) :
    let s := (bisectStep coupled)^[k] (bisectStart coupled (fun _ => 0) fun _ => 1)
    s.1 0 = 1 / 2 ^ k ∧ s.2 0 = 0 ∧ s.1 1 = 1 ∧ s.2 1 = 1 - 1 / 2 ^ k := by
  induction k with
  | zero => simp [bisectStart, coupled]
  | succ k ih =>
    rw [Function.iterate_succ_apply']
    obtain ⟨a, b, c, d⟩ := ih
    generalize (bisectStep coupled)^[k] (bisectStart coupled (fun _ => 0) fun _ => 1) = s at a b c d
    have hp : (0 : ℝ) < 1 / 2 ^ k := by positivity
    have hle : (1 : ℝ) / 2 ^ k ≤ 1 := by
      rw [div_le_one (by positivity)]
      exact one_le_pow₀ (by norm_num)
    have h0 : 0 ≤ coupled (fun i => 0.5 * s.1 i + 0.5 * s.2 i) 0 := by
      simp only [coupled, if_true, c, d]; linarith
    have h1 : coupled (fun i => 0.5 * s.1 i + 0.5 * s.2 i) 1 < 0 := by
      simp only [coupled, one_ne_zero, if_false, a, b]; linarith
    simp only [bisectStep]
    rw [if_pos h0, if_neg h0.not_gt, if_neg h1.not_ge, if_pos h1, a, b, c, d, pow_succ]
    refine ⟨by ring, rfl, rfl, by ring⟩

/-- The claim is false if the entries of the residual depend on each other: both entries of
`(x₁ - 1/4, x₀ - 3/4)` change sign between the ends of the bracket `[0, 1]`, its only root is `(3/4, 1/4)`, but
the result stays half the width of the bracket away from it, whatever the number of steps. -/
theorem c48_coupled :
    (∀ i < 2, coupled (fun _ => 0) i * coupled (fun _ => 1) i ≤ 0) ∧
    (∀ x, (∀ i < 2, coupled x i = 0) ↔ x 0 = 0.75 ∧ x 1 = 0.25) ∧
    ∀ k, 1 ≤ k → ∀ x, (∀ i < 2, coupled x i = 0) → 1 / 2 ≤ |bisect coupled k (fun _ => 0) (fun _ => 1) 0 - x 0| := by
  have hroot : ∀ x, (∀ i < 2, coupled x i = 0) ↔ x 0 = 0.75 ∧ x 1 = 0.25 := by
    intro x
    constructor
    · intro h
      have h0 := h 0 (by decide)
      have h1 := h 1 (by decide)
      simp only [coupled, if_true, one_ne_zero, if_false] at h0 h1
      exact ⟨by linarith, by linarith⟩
    · rintro ⟨h0, h1⟩ i -
      simp only [coupled]
      split <;> linarith
  refine ⟨fun i hi => ?_, hroot, fun k hk x hx => ?_⟩
  · simp only [coupled]
    split <;> norm_num
  · obtain ⟨a, b, _, _⟩ := coupled_iterate k
    simp only [bisect]
    rw [a, b, ((hroot x).1 hx).1, abs_sub_comm]
    have : (1 : ℝ) / 2 ^ k ≤ 1 / 2 := by
      apply one_div_le_one_div_of_le (by norm_num)
      simpa using pow_le_pow_right₀ (by norm_num : (1 : ℝ) ≤ 2) hk
    rw [abs_of_nonneg (by norm_num; norm_num at this; linarith)]
    norm_num; norm_num at this; linarith

/-! ## C49 -/

/-- The calls of a history that raised no exception. -/
def accepted : ImplState → List ImplOp → List ImplOp
  | _, [] => []
  | s, op :: ops => if (s.step op).2 = none then op :: accepted (s.step op).1 ops else accepted (s.step op).1 ops

/-- The bracket given by a call. -/
def ImplOp.bracket : ImplOp → Option (String × Arr × Arr)
  | .plain _ _ _ _ => none
  | .bracketed out _ x1 x2 _ => some (out, x1, x2)

/-- The initial value given by a call. -/
def ImplOp.value : ImplOp → Option (String × Arr)
  | .plain out _ v _ => some (out, v)
  | .bracketed _ _ _ _ _ => none

theorem dictSet_new {α : Type} {d : List (String × α)} {k : String} {v : α} (h : k ∉ d.map Prod.fst) :
    dictSet d k v = d ++ [(k, v)] := by
  refine if_neg ?_
  simp only [List.any_eq_true, beq_iff_eq, not_exists, not_and]
  exact fun p hp e => h (List.mem_map.2 ⟨p, hp, e⟩)

theorem dictGet_mem {α : Type} {d : List (String × α)} (hn : (d.map Prod.fst).Nodup) {k : String} {v : α}
    (h : (k, v) ∈ d) : dictGet d k = .ok v := by
  unfold dictGet
  cases hf : d.find? (·.1 == k) with
  | none => exact absurd (List.find?_eq_none.1 hf _ h) (by simp)
  | some p =>
    have hp := List.mem_of_find?_eq_some hf
    have he : p.1 = k := by simpa using List.find?_some hf
    have := List.inj_on_of_nodup_map hn hp h he
    rw [this]

theorem dictGet_not_mem {α : Type} {d : List (String × α)} {k : String} (h : k ∉ d.map Prod.fst) :
    dictGet d k = .error .keyError := by
  unfold dictGet
  rw [List.find?_eq_none.2]
  intro p hp
  simp only [beq_iff_eq]
  exact fun e => h (List.mem_map.2 ⟨p, hp, e⟩)

theorem ok_bind {α β : Type} (a : α) (f : α → Except PyErr β) : (Except.ok a >>= f) = f a := rfl

theorem error_bind {α β : Type} (e : PyErr) (f : α → Except PyErr β) : (Except.error e >>= f) = .error e := rfl

/-- What the state is after a history, in terms of the accepted calls. -/
structure After (m : Nat) (L : List ImplOp) (s : ImplState) : Prop where
  root : s.root = L.map ImplOp.res
  resOut : s.resOut = L.map fun op => (op.res, op.out)
  defined : s.defined = L.map ImplOp.out
  outVals : s.outVals = L.filterMap ImplOp.value
  brackets : s.brackets = (L.filterMap ImplOp.bracket).getLast?.map fun b => ([(b.1, b.2.1)], [(b.1, b.2.2)])
  maxiter : s.maxiter = m
  nodupRes : (L.map ImplOp.res).Nodup
  nodupOut : (L.map ImplOp.out).Nodup

theorem value_out {op : ImplOp} {p : String × Arr} (h : op.value = some p) : op.out = p.1 := by
  cases op with
  | plain => cases h; rfl
  | bracketed => cases h

theorem bracket_out {op : ImplOp} {b : String × Arr × Arr} (h : op.bracket = some b) : op.out = b.1 := by
  cases op with
  | plain => cases h
  | bracketed => cases h; rfl

theorem After.step {m : Nat} {L : List ImplOp} {s : ImplState} (h : After m L s) (op : ImplOp) :
    After m (if (s.step op).2 = none then L ++ [op] else L) (s.step op).1 := by
  unfold ImplState.step
  cases hc : s.check op with
  | some e => simpa using h
  | none =>
    unfold ImplState.check at hc
    split at hc
    · cases hc
    · split at hc
      · cases hc
      · rename_i hd
        split at hc
        · cases hc
        · split at hc
          · cases hc
          · rename_i hr
            rw [h.defined] at hd
            rw [h.root] at hr
            have hk : op.res ∉ s.resOut.map Prod.fst := by
              rw [h.resOut, List.map_map]; exact hr
            have hv : op.out ∉ s.outVals.map Prod.fst := by
              rw [h.outVals]
              intro hm
              obtain ⟨p, hp, he⟩ := List.mem_map.1 hm
              obtain ⟨o, ho, hop⟩ := List.mem_filterMap.1 hp
              exact hd (List.mem_map.2 ⟨o, ho, (value_out hop).trans he⟩)
            have nr : ((L ++ [op]).map ImplOp.res).Nodup := by
              rw [List.map_append]
              exact List.nodup_append.2 ⟨h.nodupRes, List.nodup_singleton _, by
                rintro a ha b hb rfl
                rw [List.map_singleton, List.mem_singleton] at hb
                exact hr (hb ▸ ha)⟩
            have no : ((L ++ [op]).map ImplOp.out).Nodup := by
              rw [List.map_append]
              exact List.nodup_append.2 ⟨h.nodupOut, List.nodup_singleton _, by
                rintro a ha b hb rfl
                rw [List.map_singleton, List.mem_singleton] at hb
                exact hd (hb ▸ ha)⟩
            cases op with
            | plain out res val g =>
              rw [if_pos rfl]
              refine ⟨?_, ?_, ?_, ?_, ?_, h.maxiter, nr, no⟩
              · simp [h.root]
              · simp only
                rw [dictSet_new hk, h.resOut, List.map_append, List.map_singleton]
              · simp [h.defined]
              · simp only
                rw [dictSet_new (show out ∉ _ from hv), h.outVals, List.filterMap_append]
                rfl
              · simp only
                rw [h.brackets, List.filterMap_append]
                simp [ImplOp.bracket]
            | bracketed out res x1 x2 g =>
              rw [if_pos rfl]
              refine ⟨?_, ?_, ?_, ?_, ?_, h.maxiter, nr, no⟩
              · simp [h.root]
              · simp only
                rw [dictSet_new hk, h.resOut, List.map_append, List.map_singleton]
              · simp [h.defined]
              · simp only
                rw [h.outVals, List.filterMap_append]
                simp [ImplOp.value]
              · simp only
                rw [List.filterMap_append]
                simp [ImplOp.bracket, dictSet]

theorem after_run {m : Nat} (ops : List ImplOp) : ∀ {L : List ImplOp} {s : ImplState}, After m L s →
    After m (L ++ accepted s ops) (s.run ops) := by
  induction ops with
  | nil => intro L s h; simpa [accepted, ImplState.run] using h
  | cons op ops ih =>
    intro L s h
    have := ih (h.step op)
    simp only [accepted, ImplState.run, List.foldl_cons] at this ⊢
    split at this
    · rename_i hn
      rw [if_pos hn]
      simpa using this
    · rename_i hn
      rw [if_neg hn]
      exact this

theorem after_init (m : Nat) (ops : List ImplOp) :
    After 100 (accepted (.init m) ops) ((ImplState.init m).run ops) := by
  have := after_run (m := 100) ops (L := []) (s := .init m) ⟨rfl, rfl, rfl, rfl, rfl, rfl, by simp, by simp⟩
  simpa using this

theorem solve_error {s : ImplState} {R : (String → Arr) → String → Arr} {order : List String} {r : String}
    (hr : r ∈ order) {out : String} (ho : dictGet s.resOut r = .ok out)
    {b : List (String × Arr) × List (String × Arr)} (hb : s.brackets = some b) (hk : out ∉ b.1.map Prod.fst)
    (hres : ∀ r' ∈ order, ∃ o, dictGet s.resOut r' = .ok o) (hkeys : b.1.map Prod.fst = b.2.map Prod.fst)
    (y : String → Arr) : s.solve R order y = .error .keyError := by
  unfold ImplState.solve
  induction order generalizing y with
  | nil => cases hr
  | cons r' rest ih =>
    rw [List.foldlM_cons]
    obtain ⟨o, he⟩ := hres r' List.mem_cons_self
    rcases List.mem_cons.1 hr with rfl | hr
    · rw [ho] at he
      cases he
      simp only [ho, hb, ok_bind, dictGet_not_mem hk, error_bind]
    · simp only [he, hb, ok_bind]
      by_cases hm : o ∈ b.1.map Prod.fst
      · have hm2 : o ∈ b.2.map Prod.fst := hkeys ▸ hm
        have hget : ∀ d : List (String × Arr), o ∈ d.map Prod.fst → ∃ v, dictGet d o = .ok v := by
          intro d hd
          unfold dictGet
          cases hf : d.find? (·.1 == o) with
          | none =>
            obtain ⟨p, hp, e⟩ := List.mem_map.1 hd
            exact absurd (List.find?_eq_none.1 hf _ hp) (by simp [e])
          | some p => exact ⟨_, rfl⟩
        obtain ⟨v1, h1⟩ := hget _ hm
        obtain ⟨v2, h2⟩ := hget _ hm2
        simp only [h1, h2, ok_bind]
        have := ih hr (fun r'' h => hres r'' (List.mem_cons_of_mem _ h)) (Function.update y o
          (bisect (fun x => s.residual R (Function.update y o x) o) s.maxiter v1 v2))
        rw [hb] at this
        exact this
      · simp only [dictGet_not_mem hm, error_bind]

/-- The claim is false: with a bracketed output and any other output of the component, bracketed or not, solving
raises, since only the bracket given last is kept. For every history and every order of the residuals. -/
theorem c49_two_outputs {m : Nat} {ops : List ImplOp} {a b : ImplOp} (ha : a ∈ accepted (.init m) ops)
    (hb : b ∈ accepted (.init m) ops) (hab : a.out ≠ b.out) (hbr : a.bracket ≠ none) {order : List String}
    (ho : order.Perm (((ImplState.init m).run ops).root)) (R : (String → Arr) → String → Arr) (y : String → Arr) :
    ((ImplState.init m).run ops).solve R order y = .error .keyError := by
  have h := after_init m ops
  generalize hs : (ImplState.init m).run ops = s at h ho
  generalize hL : accepted (.init m) ops = L at h ha hb
  have hget : ∀ op ∈ L, dictGet s.resOut op.res = .ok op.out := fun op hop =>
    dictGet_mem (by rw [h.resOut, List.map_map]; exact h.nodupRes)
      (by rw [h.resOut]; exact List.mem_map.2 ⟨op, hop, rfl⟩)
  have hlast : ∃ l, (L.filterMap ImplOp.bracket).getLast? = some l := by
    cases hl : (L.filterMap ImplOp.bracket).getLast? with
    | some l => exact ⟨l, rfl⟩
    | none =>
      rw [List.getLast?_eq_none_iff] at hl
      obtain ⟨v, hv⟩ := Option.ne_none_iff_exists'.1 hbr
      have : v ∈ L.filterMap ImplOp.bracket := List.mem_filterMap.2 ⟨a, ha, hv⟩
      rw [hl] at this
      cases this
  obtain ⟨l, hl⟩ := hlast
  have hbk := h.brackets
  rw [hl] at hbk
  have hres : ∀ r ∈ order, ∃ o, dictGet s.resOut r = .ok o := by
    intro r hr
    have := ho.mem_iff.1 hr
    rw [h.root] at this
    obtain ⟨op, hop, rfl⟩ := List.mem_map.1 this
    exact ⟨_, hget op hop⟩
  have hin : ∀ op ∈ L, op.res ∈ order := fun op hop => ho.mem_iff.2 (by
    rw [h.root]; exact List.mem_map.2 ⟨op, hop, rfl⟩)
  by_cases hal : a.out = l.1
  · exact solve_error (hin b hb) (hget b hb) hbk (by simp; exact fun e => hab (hal.trans e.symm)) hres rfl y
  · exact solve_error (hin a ha) (hget a ha) hbk (by simpa using hal) hres rfl y

example : (ImplOp.bracketed "x" "r" (fun _ => 0) (fun _ => 1) none) ∈ accepted (.init 5)
    [.bracketed "x" "r" (fun _ => 0) (fun _ => 1) none, .bracketed "y" "q" (fun _ => 0) (fun _ => 1) none] ∧
    (ImplOp.bracketed "y" "q" (fun _ => 0) (fun _ => 1) none) ∈ accepted (.init 5)
    [.bracketed "x" "r" (fun _ => 0) (fun _ => 1) none, .bracketed "y" "q" (fun _ => 0) (fun _ => 1) none] := by
  simp [accepted, ImplState.step, ImplState.check, ImplState.init, ImplOp.res, ImplOp.out, ImplOp.graph]

/-- Such a component cannot even be set up if one output is bracketed and another is not: the initial value of
the bracketed one is looked for among those of the others. -/
theorem c49_mixed {m : Nat} {ops : List ImplOp} {a b : ImplOp} (ha : a ∈ accepted (.init m) ops)
    (hb : b ∈ accepted (.init m) ops) (hbr : a.bracket ≠ none) (hbv : b.value ≠ none) {order : List String}
    (ho : order.Perm (((ImplState.init m).run ops).root)) :
    ((ImplState.init m).run ops).initial order = .error .keyError := by
  have h := after_init m ops
  generalize hs : (ImplState.init m).run ops = s at h ho
  generalize hL : accepted (.init m) ops = L at h ha hb
  have hget : ∀ op ∈ L, dictGet s.resOut op.res = .ok op.out := fun op hop =>
    dictGet_mem (by rw [h.resOut, List.map_map]; exact h.nodupRes)
      (by rw [h.resOut]; exact List.mem_map.2 ⟨op, hop, rfl⟩)
  have hlen : s.outVals.length ≠ 0 := by
    rw [h.outVals]
    obtain ⟨v, hv⟩ := Option.ne_none_iff_exists'.1 hbv
    have : v ∈ L.filterMap ImplOp.value := List.mem_filterMap.2 ⟨b, hb, hv⟩
    exact fun e => by rw [List.length_eq_zero_iff.1 e] at this; cases this
  have hav : a.out ∉ s.outVals.map Prod.fst := by
    rw [h.outVals]
    intro hm
    obtain ⟨p, hp, he⟩ := List.mem_map.1 hm
    obtain ⟨o, hoL, hop⟩ := List.mem_filterMap.1 hp
    have := List.inj_on_of_nodup_map h.nodupOut hoL ha ((value_out hop).trans he)
    subst this
    cases o with
    | plain => exact hbr rfl
    | bracketed => cases hop
  have hin : a.res ∈ order := ho.mem_iff.2 (by rw [h.root]; exact List.mem_map.2 ⟨a, ha, rfl⟩)
  have hsub : ∀ r ∈ order, ∃ op ∈ L, op.res = r := by
    intro r hr
    have := ho.mem_iff.1 hr
    rw [h.root] at this
    exact List.mem_map.1 this
  unfold ImplState.initial
  clear ho
  generalize ([] : List (String × Arr)) = prob
  induction order generalizing prob with
  | nil => cases hin
  | cons r rest ih =>
    rw [List.foldlM_cons]
    rcases List.mem_cons.1 hin with rfl | hr
    · simp only [hget a ha, hlen, if_false, ok_bind, dictGet_not_mem hav, error_bind]
    · obtain ⟨op, hop, rfl⟩ := hsub r List.mem_cons_self
      simp only [hget op hop, hlen, if_false, ok_bind]
      by_cases hm : op.out ∈ s.outVals.map Prod.fst
      · obtain ⟨p, hp, he⟩ := List.mem_map.1 hm
        have hg : dictGet s.outVals op.out = .ok p.2 := by
          refine dictGet_mem ?_ (by rw [← he]; exact hp)
          rw [h.outVals, List.map_filterMap]
          have hsl : ∀ l : List ImplOp, (l.filterMap fun x => (x.value).map Prod.fst).Sublist (l.map ImplOp.out) := by
            intro l
            induction l with
            | nil => exact List.Sublist.slnil
            | cons o l ihl =>
              cases o with
              | plain out => simpa [ImplOp.value, ImplOp.out] using ihl.cons_cons out
              | bracketed out => simpa [ImplOp.value, ImplOp.out] using ihl.cons out
          exact (hsl L).nodup h.nodupOut
        simp only [hg, ok_bind]
        have := ih hr (fun r' h' => hsub r' (List.mem_cons_of_mem _ h')) (dictSet prob op.out p.2)
        simp only [hlen, if_false] at this
        exact this
      · simp only [dictGet_not_mem hm, error_bind]

/-- If all outputs are bracketed, or none is, the internal problem starts with the value one for each bracketed output and
with its own initial value for each other one, in whatever order the residuals are met. -/
theorem c49_initial {m : Nat} {ops : List ImplOp}
    (hall : (∀ op ∈ accepted (.init m) ops, op.bracket ≠ none) ∨ ∀ op ∈ accepted (.init m) ops, op.bracket = none)
    {order : List String} (ho : order.Perm (((ImplState.init m).run ops).root)) :
    ∃ prob, ((ImplState.init m).run ops).initial order = .ok prob ∧ (prob.map Prod.fst).Nodup ∧
      ∀ n v, (n, v) ∈ prob ↔ (∃ res x1 x2 g, .bracketed n res x1 x2 g ∈ accepted (.init m) ops ∧ v = fun _ => 1) ∨
        ∃ res g, .plain n res v g ∈ accepted (.init m) ops := by
  have h := after_init m ops
  generalize (ImplState.init m).run ops = s at h ho
  generalize accepted (.init m) ops = L at h hall
  obtain ⟨K, rfl, hKL⟩ : ∃ K : List ImplOp, order = K.map ImplOp.res ∧ ∀ op ∈ K, op ∈ L := by
    have hsub : ∀ r ∈ order, ∃ op ∈ L, op.res = r := by
      intro r hr
      have := ho.mem_iff.1 hr
      rw [h.root] at this
      exact List.mem_map.1 this
    clear ho
    induction order with
    | nil => exact ⟨[], rfl, by simp⟩
    | cons r rest ih =>
      obtain ⟨K, hK, hm⟩ := ih fun r' h' => hsub r' (List.mem_cons_of_mem _ h')
      obtain ⟨op, hop, rfl⟩ := hsub r List.mem_cons_self
      refine ⟨op :: K, by rw [hK]; rfl, fun o ho => ?_⟩
      rcases List.mem_cons.1 ho with rfl | ho
      · exact hop
      · exact hm o ho
  rw [h.root] at ho
  have hLK : ∀ op ∈ L, op ∈ K := by
    intro op hop
    obtain ⟨o, hoK, he⟩ := List.mem_map.1 (ho.mem_iff.2 (List.mem_map.2 ⟨op, hop, rfl⟩))
    rwa [List.inj_on_of_nodup_map h.nodupRes hop (hKL o hoK) he.symm]
  have hKn : (K.map ImplOp.out).Nodup := by
    refine List.Nodup.map_on (fun a ha b hb e => List.inj_on_of_nodup_map h.nodupOut (hKL a ha) (hKL b hb) e) ?_
    exact List.Nodup.of_map _ (ho.nodup_iff.2 h.nodupRes)
  have hget : ∀ op ∈ L, dictGet s.resOut op.res = .ok op.out := fun op hop =>
    dictGet_mem (by rw [h.resOut, List.map_map]; exact h.nodupRes)
      (by rw [h.resOut]; exact List.mem_map.2 ⟨op, hop, rfl⟩)
  let start : ImplOp → Arr := fun op => match op with
    | .plain _ _ v _ => v
    | .bracketed _ _ _ _ _ => fun _ => 1
  have hstep : ∀ op ∈ L, ∀ prob : List (String × Arr), (do
      let out ← dictGet s.resOut op.res
      if s.outVals.length = 0 then pure (dictSet prob out fun _ => 1)
      else do
        let v ← dictGet s.outVals out
        pure (dictSet prob out v)) = Except.ok (dictSet prob op.out (start op)) := by
    intro op hop prob
    simp only [hget op hop, ok_bind]
    rcases hall with hall | hall
    · have h0 : s.outVals = [] := by
        rw [h.outVals, List.filterMap_eq_nil_iff]
        intro o hoL
        cases o with
        | plain => exact absurd rfl (hall _ hoL)
        | bracketed => rfl
      cases op with
      | plain => exact absurd rfl (hall _ hop)
      | bracketed => simp [h0, start]; rfl
    · have hv : s.outVals = L.map fun o => (o.out, start o) := by
        rw [h.outVals]
        clear h hget hLK hKL ho hop
        induction L with
        | nil => rfl
        | cons o L ih =>
          cases o with
          | plain => simpa [ImplOp.value, ImplOp.out, start] using ih fun o ho => hall o (List.mem_cons_of_mem _ ho)
          | bracketed => exact absurd (hall _ List.mem_cons_self) (by simp [ImplOp.bracket])
      have hg : dictGet s.outVals op.out = .ok (start op) :=
        dictGet_mem (by rw [hv, List.map_map]; exact h.nodupOut) (by rw [hv]; exact List.mem_map.2 ⟨op, hop, rfl⟩)
      rw [if_neg, hg]
      · rfl
      · rw [hv, List.length_map]
        exact fun e => by rw [List.length_eq_zero_iff.1 e] at hop; cases hop
  have hfold : ∀ (K : List ImplOp) (prob : List (String × Arr)), (∀ op ∈ K, op ∈ L) →
      (prob.map Prod.fst ++ K.map ImplOp.out).Nodup →
      (K.map ImplOp.res).foldlM (init := prob) (fun prob res => (do
        let out ← dictGet s.resOut res
        if s.outVals.length = 0 then pure (dictSet prob out fun _ => 1)
        else do
          let v ← dictGet s.outVals out
          pure (dictSet prob out v) : Except PyErr (List (String × Arr)))) =
        .ok (prob ++ K.map fun op => (op.out, start op)) := by
    intro K
    induction K with
    | nil => intro prob _ _; simp; rfl
    | cons op K ih =>
      intro prob hK hn
      rw [List.map_cons, List.foldlM_cons, hstep op (hK op List.mem_cons_self), ok_bind, dictSet_new]
      · rw [ih _ (fun o ho => hK o (List.mem_cons_of_mem _ ho)) (by simpa using hn)]
        simp
      · intro hm
        rw [List.map_cons] at hn
        exact (List.nodup_append.1 hn).2.2 _ hm _ List.mem_cons_self rfl
  refine ⟨K.map fun op => (op.out, start op), ?_, ?_, fun n v => ?_⟩
  · have := hfold K [] hKL (by simpa using hKn)
    rw [List.nil_append] at this
    exact this
  · rw [List.map_map]
    exact hKn
  · constructor
    · intro hm
      obtain ⟨op, hop, he⟩ := List.mem_map.1 hm
      obtain ⟨rfl, rfl⟩ := Prod.mk.inj he
      cases op with
      | plain o r x g => exact Or.inr ⟨r, g, hKL _ hop⟩
      | bracketed o r x1 x2 g => exact Or.inl ⟨r, x1, x2, g, hKL _ hop, rfl⟩
    · rintro (⟨r, x1, x2, g, hm, rfl⟩ | ⟨r, g, hm⟩)
      · exact List.mem_map.2 ⟨_, hLK _ hm, rfl⟩
      · exact List.mem_map.2 ⟨_, hLK _ hm, rfl⟩

example : ∀ op ∈ accepted (.init 5) [.plain "x" "r" (fun _ => 4) none, .plain "y" "q" (fun _ => 7) none],
    op.bracket = none := by
  simp [accepted, ImplState.step, ImplState.check, ImplState.init, ImplOp.res, ImplOp.out, ImplOp.graph, ImplOp.bracket]

/-- **C49**, for a component with a single output: it is solved with the bracket given for it. Missing: several
outputs (`c49_two_outputs`, `c49_mixed`) and the number of steps, which is always 100 (`c49_maxiter`). -/
theorem c49_single_partial {m : Nat} {ops : List ImplOp} {out res : String} {x1 x2 : Arr} {g : Option PyErr}
    (ha : accepted (.init m) ops = [.bracketed out res x1 x2 g]) (R : (String → Arr) → String → Arr)
    (y : String → Arr) : ((ImplState.init m).run ops).solve R ((ImplState.init m).run ops).root y =
      .ok (Function.update y out (bisect (fun x => R (Function.update y out x) res) 100 x1 x2)) := by
  have h := after_init m ops
  rw [ha] at h
  generalize (ImplState.init m).run ops = s at h
  have h1 : s.root = [res] := h.root
  have h2 : s.resOut = [(res, out)] := h.resOut
  have h3 : s.brackets = some ([(out, x1)], [(out, x2)]) := h.brackets
  have h4 : s.maxiter = 100 := h.maxiter
  simp [ImplState.solve, h1, h2, h3, h4, dictGet, ok_bind, ImplState.residual]

/-- Without brackets, solving leaves the outputs alone. -/
theorem c49_plain {m : Nat} {ops : List ImplOp} (ha : ∀ op ∈ accepted (.init m) ops, op.bracket = none)
    (R : (String → Arr) → String → Arr) (y : String → Arr) :
    ((ImplState.init m).run ops).solve R ((ImplState.init m).run ops).root y = .ok y := by
  have h := after_init m ops
  generalize (ImplState.init m).run ops = s at h
  generalize accepted (.init m) ops = L at h ha
  have hb : s.brackets = none := by
    rw [h.brackets, List.filterMap_eq_nil_iff.2 ha]; rfl
  have hget : ∀ r ∈ s.root, ∃ o, dictGet s.resOut r = .ok o := by
    intro r hr
    rw [h.root] at hr
    obtain ⟨op, hop, rfl⟩ := List.mem_map.1 hr
    exact ⟨_, dictGet_mem (by rw [h.resOut, List.map_map]; exact h.nodupRes)
      (by rw [h.resOut]; exact List.mem_map.2 ⟨op, hop, rfl⟩)⟩
  unfold ImplState.solve
  generalize s.root = order at hget
  induction order with
  | nil => rfl
  | cons r rest ih =>
    rw [List.foldlM_cons]
    obtain ⟨o, ho⟩ := hget r List.mem_cons_self
    simp only [ho, hb]
    have := ih fun r' h' => hget r' (List.mem_cons_of_mem _ h')
    rw [hb] at this
    exact this

/-- The argument `maxiter` has no effect at all. -/
theorem c49_maxiter (m m' : Nat) (ops : List ImplOp) : (ImplState.init m).run ops = (ImplState.init m').run ops := rfl

/-- The exceptions of `define_residual` and `define_residual_bracketed` after any history: `ValueError` if the residual is
the output itself or the output has a residual; what the graph functions raise; `ValueError` if the residual is one already;
and no others. -/
theorem c49_exceptions (m : Nat) (ops : List ImplOp) (op : ImplOp) :
    (op.res = op.out ∨ (∃ a ∈ accepted (.init m) ops, a.out = op.out) →
      (((ImplState.init m).run ops).step op).2 = some .valueError) ∧
    (op.res ≠ op.out → (∀ a ∈ accepted (.init m) ops, a.out ≠ op.out) →
      (∀ e, op.graph = some e → (((ImplState.init m).run ops).step op).2 = some e) ∧
      (op.graph = none → (∃ a ∈ accepted (.init m) ops, a.res = op.res) →
        (((ImplState.init m).run ops).step op).2 = some .valueError) ∧
      (op.graph = none → (∀ a ∈ accepted (.init m) ops, a.res ≠ op.res) →
        (((ImplState.init m).run ops).step op).2 = none)) := by
  have h := after_init m ops
  have hd : ∀ n, n ∈ ((ImplState.init m).run ops).defined ↔ ∃ a ∈ accepted (.init m) ops, a.out = n := by
    intro n; rw [h.defined, List.mem_map]
  have hr : ∀ n, n ∈ ((ImplState.init m).run ops).root ↔ ∃ a ∈ accepted (.init m) ops, a.res = n := by
    intro n; rw [h.root, List.mem_map]
  generalize (ImplState.init m).run ops = s at hd hr
  have hs : ∀ e, s.check op = some e → (s.step op).2 = some e := fun e he => by
    unfold ImplState.step
    rw [he]
  refine ⟨fun h1 => hs _ ?_, fun h1 h2 => ?_⟩
  · unfold ImplState.check
    by_cases h0 : op.res = op.out
    · rw [if_pos h0]
    · rw [if_neg h0, if_pos ((hd _).2 (h1.resolve_left h0))]
  · have hnd : op.out ∉ s.defined := fun hm => by
      obtain ⟨a, ha, e⟩ := (hd _).1 hm
      exact h2 a ha e
    have hc : s.check op = match op.graph with
        | some e => some e
        | none => if op.res ∈ s.root then some .valueError else none := by
      unfold ImplState.check
      rw [if_neg h1, if_neg hnd]
      cases op.graph <;> rfl
    refine ⟨fun e he => hs _ ?_, fun he hx => hs _ ?_, fun he hx => ?_⟩
    · rw [hc, he]
    · rw [hc, he]
      exact if_pos ((hr _).2 hx)
    · have hn : s.check op = none := by
        rw [hc, he]
        exact if_neg fun hm => by
          obtain ⟨a, ha, e⟩ := (hr _).1 hm
          exact hx a ha e
      unfold ImplState.step
      rw [hn]
      cases op <;> rfl

/-- **C48** and **C49** together: a component with one bracketed output whose residual is elementwise and continuous
inside the bracket, and changes sign, is solved to within `|x2 - x1| / 2 ^ 101`. -/
theorem c49_solved_partial {m : Nat} {ops : List ImplOp} {out res : String} {x1 x2 : Arr} {g : Option PyErr}
    (ha : accepted (.init m) ops = [.bracketed out res x1 x2 g]) (R : (String → Arr) → String → Arr)
    (y : String → Arr) {ρ : Nat → ℝ → ℝ} (N : Nat)
    (hR : ∀ x, (∀ j, x j ∈ Set.uIcc (x1 j) (x2 j)) → ∀ i < N, R (Function.update y out x) res i = ρ i (x i))
    (hs : ∀ i < N, ρ i (x1 i) * ρ i (x2 i) ≤ 0) (hc : ∀ i < N, ContinuousOn (ρ i) (Set.uIcc (x1 i) (x2 i))) :
    ∃ y', ((ImplState.init m).run ops).solve R ((ImplState.init m).run ops).root y = .ok y' ∧
      (∀ o, o ≠ out → y' o = y o) ∧ ∃ z : Arr, (∀ j, z j ∈ Set.uIcc (x1 j) (x2 j)) ∧
        ∀ i < N, R (Function.update y out z) res i = 0 ∧ |y' out i - z i| ≤ |x2 i - x1 i| / 2 ^ 101 := by
  refine ⟨_, c49_single_partial ha R y, fun o ho => Function.update_of_ne ho _ _, ?_⟩
  obtain ⟨z, hz, h⟩ := c48_roots (f := fun x => R (Function.update y out x) res) x1 x2 N hR hs hc 100
  refine ⟨z, hz, fun i hi => ⟨by rw [hR z hz i hi]; exact (h i hi).1, ?_⟩⟩
  rw [Function.update_self]
  exact (h i hi).2

example : accepted (.init 5) [.bracketed "x" "r" (fun _ => 0) (fun _ => 2) none,
    .bracketed "x" "q" (fun _ => 0) (fun _ => 1) none] = [.bracketed "x" "r" (fun _ => 0) (fun _ => 2) none] := by
  simp [accepted, ImplState.step, ImplState.check, ImplState.init, ImplOp.res, ImplOp.out, ImplOp.graph]

/-! ## C61 -/

open Finset in
/-- **C61**: if no derivative on the diagonal is zero, `solve_linear` solves the linear system of the component
(in forward mode, and its transpose in reverse mode) for every right-hand side if, and only if, the Jacobian is
diagonal. Missing: Jacobians with entries outside the diagonal, for which the claim is false. -/
theorem c61_solve_linear_partial {ι : Type} [Fintype ι] [DecidableEq ι] (J : ι → ι → ℝ) (h0 : ∀ k, J k k ≠ 0) :
    ((∀ r : ι → ℝ, ∀ k, ∑ l, J k l * (implSolveLinear J true (fun _ => 0, r)).1 l = r k) ↔
      ∀ k l, k ≠ l → J k l = 0) ∧
    ((∀ r : ι → ℝ, ∀ k, ∑ l, J l k * (implSolveLinear J false (r, fun _ => 0)).2 l = r k) ↔
      ∀ k l, k ≠ l → J k l = 0) := by
  have key : ∀ K : ι → ι → ℝ, (∀ k, K k k = J k k) →
      ((∀ r : ι → ℝ, ∀ k, ∑ l, K k l * (1 / J l l * r l) = r k) ↔ ∀ k l, k ≠ l → K k l = 0) := by
    intro K hK
    constructor
    · intro h k l hkl
      have := h (fun j => if j = l then 1 else 0) k
      rw [sum_eq_single l (fun b _ hb => by rw [if_neg hb]; ring) (fun h => absurd (mem_univ l) h), if_pos rfl,
        if_neg hkl] at this
      have hn : (1 / J l l) ≠ 0 := one_div_ne_zero (h0 l)
      simpa [h0 l] using this
    · intro h r k
      rw [sum_eq_single k (fun b _ hb => by rw [h k b hb.symm, zero_mul]) (fun h => absurd (mem_univ k) h), hK]
      field_simp [h0 k]
  refine ⟨?_, ?_⟩
  · simpa [implSolveLinear, implDerivs] using key J fun _ => rfl
  · have := key (fun k l => J l k) fun _ => rfl
    simp only [implSolveLinear, implDerivs, Bool.false_eq_true, if_false, zero_add]
    rw [this]
    exact ⟨fun h k l hkl => h l k hkl.symm, fun h k l hkl => h l k hkl.symm⟩

/-- A vector added to what is there already: the system is not solved if the vector to be found is not zero
before. -/
theorem c61_adds {ι : Type} (J : ι → ι → ℝ) (d r : ι → ℝ) (k : ι) :
    (implSolveLinear J true (d, r)).1 k = d k + (implSolveLinear J true (fun _ => 0, r)).1 k := by
  simp [implSolveLinear]

example : (∀ k : Fin 2, (fun a b : Fin 2 => if a = b then (2 : ℝ) else 1) k k ≠ 0) ∧
    ¬ ∀ k l : Fin 2, k ≠ l → (fun a b : Fin 2 => if a = b then (2 : ℝ) else 1) k l = 0 := by
  refine ⟨fun k => by simp, fun h => ?_⟩
  have := h 0 1 (by decide)
  simp at this

end OM
