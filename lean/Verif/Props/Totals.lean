import Verif.Props.Exec
import Mathlib.Analysis.Calculus.FDeriv.Comp
import Mathlib.Analysis.Calculus.FDeriv.Prod
import Mathlib.Analysis.Calculus.FDeriv.Pi
import Mathlib.Analysis.Calculus.Deriv.Mul

/-!
# Total derivatives through the generated group (C56)

OpenMDAO obtains total derivatives from the partial derivatives of the components by solving the linear
system "the derivative of a component's output is the sum over its inputs of the partial derivative
times the derivative of that input".
-/

namespace OM
open Spec

variable {E : String → Type} [∀ n, NormedAddCommGroup (E n)] [∀ n, NormedSpace ℝ (E n)]
  {P : Type} [NormedAddCommGroup P] [NormedSpace ℝ P]

/-- Partial derivatives of a component: at the inputs `x`, of the output `n` by the `i`-th input. -/
def Partials (c : Comp E) : Type :=
  ((i : Fin c.reads.length) → E c.reads[i]) → (n : String) → (i : Fin c.reads.length) →
    E c.reads[i] →L[ℝ] E n

/-- The partials are the derivative of what the component computes, at the inputs `x`. -/
def Partials.ExactAt {c : Comp E} (D : Partials c) (x : (i : Fin c.reads.length) → E c.reads[i]) :
    Prop :=
  ∀ n ∈ c.writes, HasFDerivAt (fun y : (i : Fin c.reads.length) → E c.reads[i] => c.f y n)
    (∑ i, (D x n i).comp (ContinuousLinearMap.proj (R := ℝ) (φ := fun i => E c.reads[i]) i)) x

/-- The linear system of total derivatives by a parameter in `P`, at the values `s`; `d₀` are the
derivatives of the variables that no component writes. -/
def TotalSystem (N : Ref → Prop) (comp : Ref → Comp E) (D : (u : Ref) → Partials (comp u))
    (s : Store E) (d₀ d : (n : String) → P →L[ℝ] E n) : Prop :=
  (∀ n, (∀ u, N u → n ∉ (comp u).writes) → d n = d₀ n) ∧
  ∀ u, N u → ∀ n ∈ (comp u).writes,
    d n = ∑ i : Fin (comp u).reads.length,
      (D u (fun i => s (comp u).reads[i]) n i).comp (d (comp u).reads[i])

/-- Forward accumulation through one component, as a component itself. -/
def tangentComp (P : Type) [NormedAddCommGroup P] [NormedSpace ℝ P] (c : Comp E) (D : Partials c)
    (s : Store E) : Comp fun n => P →L[ℝ] E n :=
  ⟨c.reads, c.writes, fun y n => ∑ i, (D (fun i => s c.reads[i]) n i).comp (y i)⟩

/-- The values after a run satisfy the defining equation of each component. -/
theorem runAll_fixed {V : String → Type} {comp : Nat → Comp V} {l : List Nat} (hnd : l.Nodup)
    (hown : OwnNames (· ∈ l) comp)
    (hreads : ∀ u ∈ l, ∀ n ∈ (comp u).reads,
      (∀ v ∈ l, n ∉ (comp v).writes) ∨ ∃ v, Before l v u ∧ n ∈ (comp v).writes)
    (init : Store V) {u : Nat} (hu : u ∈ l) {n : String} (hn : n ∈ (comp u).writes) :
    runAll (l.map comp) init n = (comp u).f (fun i => runAll (l.map comp) init (comp u).reads[i]) n :=
  eval_unique hown (runAll_eval hnd hown hreads init n)
    (Eval.computed (N := (· ∈ l)) u n hu hn _ fun i => runAll_eval hnd hown hreads init _)

theorem runAll_untouched {V : String → Type} {comp : Nat → Comp V} (l : List Nat) (init : Store V)
    {n : String} (hn : ∀ u ∈ l, n ∉ (comp u).writes) : runAll (l.map comp) init n = init n := by
  induction l generalizing init with
  | nil => rfl
  | cons u l ih =>
    show runAll (l.map comp) ((comp u).run init) n = _
    rw [ih _ fun v hv => hn v (by simp [hv])]
    unfold Comp.run
    rw [if_neg (hn u (by simp))]

/-- Solutions of the linear system are derivatives of the values computed by a run. -/
theorem total_hasFDerivAt {comp : Ref → Comp E} {D : (u : Ref) → Partials (comp u)} {l : List Ref}
    (hnd : l.Nodup) (hown : OwnNames (· ∈ l) comp)
    (hreads : ∀ u ∈ l, ∀ n ∈ (comp u).reads,
      (∀ v ∈ l, n ∉ (comp v).writes) ∨ ∃ v, Before l v u ∧ n ∈ (comp v).writes)
    {init : P → Store E} {p₀ : P} {d₀ d : (n : String) → P →L[ℝ] E n}
    (hinit : ∀ n, (∀ u ∈ l, n ∉ (comp u).writes) → HasFDerivAt (fun p => init p n) (d₀ n) p₀)
    (hexact : ∀ u ∈ l, (D u).ExactAt fun i => runAll (l.map comp) (init p₀) (comp u).reads[i])
    (hd : TotalSystem (· ∈ l) comp D (runAll (l.map comp) (init p₀)) d₀ d) (n : String) :
    HasFDerivAt (fun p => runAll (l.map comp) (init p) n) (d n) p₀ := by
  -- every name is available once all components that are before have run
  have key : ∀ k, ∀ n, ((∀ v ∈ l, n ∉ (comp v).writes) ∨ ∃ v ∈ l.take k, n ∈ (comp v).writes) →
      HasFDerivAt (fun p => runAll (l.map comp) (init p) n) (d n) p₀ := by
    intro k
    induction k with
    | zero =>
      intro n h
      rcases h with h | ⟨v, hv, _⟩
      · rw [hd.1 n h]
        refine (hinit n h).congr_of_eventuallyEq (Filter.Eventually.of_forall fun p => ?_)
        exact runAll_untouched l _ h
      · simp at hv
    | succ k ih =>
      intro n h
      rcases h with h | ⟨v, hv, hm⟩
      · exact ih n (Or.inl h)
      · by_cases hk : k < l.length
        · rw [List.take_succ_eq_append_getElem hk] at hv
          rcases List.mem_append.1 hv with hv | hv
          · exact ih n (Or.inr ⟨v, hv, hm⟩)
          · obtain rfl : v = l[k] := by simpa using hv
            have hu : l[k] ∈ l := List.getElem_mem hk
            have hl : l = l.take k ++ l[k] :: l.drop (k + 1) := by
              rw [← List.drop_eq_getElem_cons hk, List.take_append_drop]
            generalize hgen : l[k] = u at *
            have hx : ∀ i : Fin (comp u).reads.length, HasFDerivAt
                (fun p => runAll (l.map comp) (init p) (comp u).reads[i]) (d (comp u).reads[i]) p₀ := by
              intro i
              refine ih _ ?_
              rcases hreads u hu (comp u).reads[i] (List.getElem_mem _) with h | ⟨v, hv, hm⟩
              · exact Or.inl h
              · exact Or.inr ⟨v, before_mem_prefix hnd hl hv, hm⟩
            have hpi := hasFDerivAt_pi.2 hx
            have hc := (hexact u hu n hm).comp p₀ hpi
            rw [hd.2 u hu n hm]
            refine (hc.congr_of_eventuallyEq (Filter.Eventually.of_forall fun p => ?_)).congr_fderiv ?_
            · exact runAll_fixed hnd hown hreads (init p) hu hm
            · ext q
              simp
        · rw [List.take_of_length_le (by omega)] at hv
          exact ih n (Or.inr ⟨v, by rwa [List.take_of_length_le (by omega)], hm⟩)
  refine key l.length n ?_
  rw [List.take_length]
  by_cases h : ∃ v ∈ l, n ∈ (comp v).writes
  · exact Or.inr h
  · left
    intro v hv hm
    exact h ⟨v, hv, hm⟩

/-- **C56.** If the partial derivatives are exact at the values computed by the run, then forward
accumulation in the generated order gives the derivative of every variable by the parameter of the
inputs, and it is the only solution of OpenMDAO's linear system of total derivatives. -/
theorem c56_total_derivatives {env : SetupEnv} {isIndep : Ref → Bool} {root : Ref} {deps : Graph}
    (h : WellFormed env isIndep root deps) {comp : Ref → Comp E}
    (hw : Wired deps (Needs deps root) comp) (D : (u : Ref) → Partials (comp u)) :
    ∃ l, execOrder env isIndep root (GState.fresh deps) = .ok l ∧
      ∀ (init : P → Store E) (p₀ : P) (d₀ : (n : String) → P →L[ℝ] E n),
        (∀ n, HasFDerivAt (fun p => init p n) (d₀ n) p₀) →
        (∀ u, Needs deps root u →
          (D u).ExactAt fun i => runAll (l.map comp) (init p₀) (comp u).reads[i]) →
        let tangents := runAll (l.map fun u =>
          tangentComp P (comp u) (D u) (runAll (l.map comp) (init p₀))) d₀
        (∀ n, HasFDerivAt (fun p => runAll (l.map comp) (init p) n) (tangents n) p₀) ∧
        ∀ d, TotalSystem (Needs deps root) comp D (runAll (l.map comp) (init p₀)) d₀ d ↔
          d = tangents := by
  obtain ⟨l, g1, h1, h2, h3, h4, h5⟩ := execOrder_ok h
  refine ⟨l, h1, fun init p₀ d₀ hinit hexact => ?_⟩
  intro tangents
  have hN : Needs deps root = (· ∈ l) := funext fun u => propext (h3 u).symm
  rw [hN] at hw hexact ⊢
  have hown : OwnNames (· ∈ l) comp := hw.own
  have hreads : ∀ u ∈ l, ∀ n ∈ (comp u).reads,
      (∀ v ∈ l, n ∉ (comp v).writes) ∨ ∃ v, Before l v u ∧ n ∈ (comp v).writes := by
    intro u hu n hn
    rcases hw.reads u hu n hn with h | ⟨v, _, hv, hm⟩
    · exact Or.inl h
    · refine Or.inr ⟨v, h5 u v hu ?_, hm⟩
      exact needs_mono (fun a b hab => Relation.TransGen.single ((h4 a b).2 (Or.inl hab))) hv
  have hsys : TotalSystem (· ∈ l) comp D (runAll (l.map comp) (init p₀)) d₀ tangents := by
    refine ⟨fun n hn => ?_, fun u hu n hn => ?_⟩
    · exact runAll_untouched (comp := fun u =>
        tangentComp P (comp u) (D u) (runAll (l.map comp) (init p₀))) l d₀ hn
    · exact runAll_fixed (comp := fun u =>
        tangentComp P (comp u) (D u) (runAll (l.map comp) (init p₀))) h2 hown hreads d₀ hu hn
  have hder := fun d hd => total_hasFDerivAt (d := d) h2 hown hreads (fun n _ => hinit n) hexact hd
  refine ⟨hder _ hsys, fun d => ⟨fun hd => funext fun n => ?_, fun hd => hd ▸ hsys⟩⟩
  exact (hder d hd n).unique (hder _ hsys n)

/-! ## A concrete group: `y = x * x`, `z = y + x` -/

def sqComp : Ref → Comp fun _ => ℝ
  | 2 => ⟨["x"], ["y"], fun a _ => a 0 * a 0⟩
  | 1 => ⟨["y", "x"], ["z"], fun a _ => a 0 + a 1⟩
  | _ => ⟨[], [], fun _ _ => 0⟩

noncomputable def sqPartials : (u : Ref) → Partials (sqComp u)
  | 2 => fun a _ _ => (2 * a (0 : Fin 1)) • ContinuousLinearMap.id ℝ ℝ
  | 1 => fun _ _ _ => ContinuousLinearMap.id ℝ ℝ
  | _ + 3 => fun _ _ _ => 0
  | 0 => fun _ _ _ => 0

/-- `0` is the root, `1` is `z`, `2` is `y`, `3` is `x`. -/
def sqDeps : Graph := ofAdj [[1], [2, 3], [3], []]

theorem sq_reach {v : Ref} (hv : Reach sqDeps 0 v) : v < 4 :=
  ofAdj_reach (adj := [[1], [2, 3], [3], []]) (by decide) (by decide) hv

theorem sq_wellFormed : WellFormed demoEnv (fun _ => false) 0 sqDeps := by
  refine wellFormed_of_acyclic (List.range 4) (fun v hv => by simpa using sq_reach hv) (by decide)
    (ofAdj_acyclic (fun u => [4, 3, 2, 1].getD u 0) (by decide) 0) 8 pyOrder_ascending ?_ ?_ ?_
  · intro u hu
    have := sq_reach hu.to_reflTransGen
    interval_cases u <;> decide
  · intro u hu
    have := sq_reach hu
    interval_cases u <;> decide
  · intro i _ hi'
    cases hi'

theorem sq_wired : Wired sqDeps (Needs sqDeps 0) sqComp := by
  constructor
  · intro u v n hu hv
    have := sq_reach hu.to_reflTransGen
    have := sq_reach hv.to_reflTransGen
    interval_cases u <;> interval_cases v <;> simp [sqComp] <;> rintro rfl <;> decide
  · intro u hu n hn
    have := sq_reach hu.to_reflTransGen
    have n2 : Needs sqDeps 0 2 :=
      (Relation.TransGen.single (show 1 ∈ sqDeps 0 by decide)).tail (show 2 ∈ sqDeps 1 by decide)
    have hx : ∀ v, Needs sqDeps 0 v → "x" ∉ (sqComp v).writes := by
      intro v hv
      have := sq_reach hv.to_reflTransGen
      interval_cases v <;> simp [sqComp]
    interval_cases u
    · simp [sqComp] at hn
    · have : n = "y" ∨ n = "x" := by simpa [sqComp] using hn
      rcases this with rfl | rfl
      · exact Or.inr ⟨2, n2, Relation.TransGen.single (show 2 ∈ sqDeps 1 by decide), by simp [sqComp]⟩
      · exact Or.inl hx
    · obtain rfl : n = "x" := by simpa [sqComp] using hn
      exact Or.inl hx
    · simp [sqComp] at hn

theorem sq_exact (u : Ref) (x) : (sqPartials u).ExactAt x := by
  match u, x with
  | 2, x =>
    intro n _
    have h0 : HasFDerivAt (fun y : Fin 1 → ℝ => y 0)
        (ContinuousLinearMap.proj (R := ℝ) (φ := fun _ : Fin 1 => ℝ) 0) x := hasFDerivAt_apply _ _
    refine (h0.mul h0).congr_fderiv ?_
    ext q
    show x (0 : Fin 1) * q (0 : Fin 1) + x (0 : Fin 1) * q (0 : Fin 1) = _
    show _ = (∑ i : Fin 1, ((2 * x (0 : Fin 1)) • ContinuousLinearMap.id ℝ ℝ).comp
      (ContinuousLinearMap.proj (R := ℝ) (φ := fun _ : Fin 1 => ℝ) i)) q
    simp; ring
  | 1, x =>
    intro n _
    have h0 : ∀ i : Fin 2, HasFDerivAt (fun y : Fin 2 → ℝ => y i)
        (ContinuousLinearMap.proj (R := ℝ) (φ := fun _ : Fin 2 => ℝ) i) x :=
      fun i => hasFDerivAt_apply _ _
    refine ((h0 0).add (h0 1)).congr_fderiv ?_
    ext q
    show q 0 + q 1 = _
    show _ = (∑ i : Fin 2, (ContinuousLinearMap.id ℝ ℝ).comp
      (ContinuousLinearMap.proj (R := ℝ) (φ := fun _ : Fin 2 => ℝ) i)) q
    simp
  | 0, x => intro n hn; simp [sqComp] at hn
  | _ + 3, x => intro n hn; simp [sqComp] at hn

/-- The hypotheses of `c56_total_derivatives` hold for this group with `x` as parameter. -/
example : ∃ l, execOrder demoEnv (fun _ => false) 0 (GState.fresh sqDeps) = .ok l ∧
    ∀ p₀ : ℝ, ∃ d : String → ℝ →L[ℝ] ℝ,
      HasFDerivAt (fun p : ℝ => runAll (l.map sqComp) (fun _ => p) "z") (d "z") p₀ := by
  obtain ⟨l, h1, h2⟩ := c56_total_derivatives (P := ℝ) sq_wellFormed sq_wired sqPartials
  refine ⟨l, h1, fun p₀ => ⟨_, (h2 (fun p _ => p) p₀ (fun _ => ContinuousLinearMap.id ℝ ℝ)
    (fun _ => hasFDerivAt_id _) fun u _ => sq_exact u _).1 "z"⟩⟩

end OM
