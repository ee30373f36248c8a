import Mathlib.Analysis.Calculus.Deriv.Comp
import Verif.Model.ImplRun
import Verif.Props.Totals
import Verif.Props.Implicit

/-!
# Residuals and derivatives of an implicit component belong to the values they are asked for (C73)
-/

namespace OM
open Spec

section
variable {V : String → Type}

/-- An internal problem as `Group.setup` makes it: every component comes once, writes its own variables, reads what was
computed before or what is given from outside; all that is given is an input or output of the implicit component. -/
structure ImplProb.Ok (p : ImplProb V) : Prop where
  nodup : p.order.Nodup
  own : OwnNames (· ∈ p.order) p.comp
  reads : ∀ u ∈ p.order, ∀ n ∈ (p.comp u).reads,
    ((∀ v ∈ p.order, n ∉ (p.comp v).writes) ∧ n ∈ p.given) ∨ ∃ v, Before p.order v u ∧ n ∈ (p.comp v).writes
  given : ∀ n ∈ p.given, ∀ v ∈ p.order, n ∉ (p.comp v).writes

/-- The values after some calls. -/
def ImplProb.history (p : ImplProb V) (s : Store V) (cs : List (ImplCall V)) : Store V := cs.foldl p.after s

theorem ImplProb.Ok.reads' {p : ImplProb V} (ok : p.Ok) : ∀ u ∈ p.order, ∀ n ∈ (p.comp u).reads,
    (∀ v ∈ p.order, n ∉ (p.comp v).writes) ∨ ∃ v, Before p.order v u ∧ n ∈ (p.comp v).writes := fun u hu n hn =>
  (ok.reads u hu n hn).imp And.left id

theorem eval_given {p : ImplProb V} (ok : p.Ok) {init init' : Store V} (h : ∀ n ∈ p.given, init n = init' n) {n : String}
    {v : V n} (he : Eval (· ∈ p.order) p.comp init n v)
    (hn : n ∈ p.given ∨ ∃ u ∈ p.order, n ∈ (p.comp u).writes) : Eval (· ∈ p.order) p.comp init' n v := by
  induction he with
  | given n hno =>
    rcases hn with hn | ⟨u, hu, hm⟩
    · rw [h n hn]
      exact .given n hno
    · exact absurd hm (hno u hu)
  | computed u n hu hm x hx ih =>
    refine .computed u n hu hm x fun i => ih i ?_
    rcases ok.reads u hu _ (List.getElem_mem i.2) with h' | ⟨v, hv, hm'⟩
    · exact Or.inl h'.2
    · refine Or.inr ⟨v, ?_, hm'⟩
      obtain ⟨a, b, c, e⟩ := hv
      rw [e]
      simp

/-- **C73, residuals.** Whatever calls came before, `apply_nonlinear` finds the values of the residuals, and of all
expressions they are made of, by evaluation at the inputs and outputs given. -/
theorem c73_residuals {p : ImplProb V} (ok : p.Ok) (s : Store V) (cs : List (ImplCall V)) (x : Store V) (n : String)
    (hn : ∃ u ∈ p.order, n ∈ (p.comp u).writes) (v : V n) :
    p.after (p.history s cs) (.residuals x) n = v ↔ Eval (· ∈ p.order) p.comp x n v := by
  have h1 : Eval (· ∈ p.order) p.comp x n (p.after (p.history s cs) (.residuals x) n) :=
    eval_given ok (fun n hn => by simp [ImplProb.setValues, hn])
      (runAll_eval ok.nodup ok.own ok.reads' (p.setValues x (p.history s cs)) n) (Or.inr hn)
  exact ⟨fun h => h ▸ h1, fun h => eval_unique ok.own h1 h⟩

/-- **C73, trial runs.** The same for the runs of the bisection, with the trial value for the output. -/
theorem c73_trial {p : ImplProb V} (ok : p.Ok) (s : Store V) (cs : List (ImplCall V)) (x : Store V) (out : String)
    (hout : out ∈ p.given) (b : V out) (n : String) (hn : ∃ u ∈ p.order, n ∈ (p.comp u).writes) (v : V n) :
    p.after (p.history s cs) (.trial x out b) n = v ↔ Eval (· ∈ p.order) p.comp (Function.update x out b) n v := by
  refine Iff.trans ?_ (c73_residuals ok s cs (Function.update x out b) n hn v)
  have : (p.setValues x (p.history s cs)).set out b = p.setValues (Function.update x out b) (p.history s cs) := by
    funext m
    by_cases hm : m = out
    · subst hm
      simp [ImplProb.setValues, Store.set, Function.update, hout]
    · simp [ImplProb.setValues, Store.set, Function.update, hm]
  simp only [ImplProb.after, this]

end

section
variable {E : String → Type} [∀ n, NormedAddCommGroup (E n)] [∀ n, NormedSpace ℝ (E n)]
  {P : Type} [NormedAddCommGroup P] [NormedSpace ℝ P]

/-- **C73, derivatives.** If the last call before `linearize` asked for the residuals at the same inputs and outputs, and
the partials of the internal components are exact there, then the system that `compute_totals` solves has exactly one
solution, and it gives the derivatives of the residuals by the inputs and outputs. Missing: any other call before
`linearize` (`c73_stale_violated`). -/
theorem c73_jacobian_partial {p : ImplProb E} (ok : p.Ok) (D : (u : Ref) → Partials (p.comp u)) (s : Store E)
    (cs : List (ImplCall E)) (x : P → Store E) (q₀ : P) (d₀ : (n : String) → P →L[ℝ] E n)
    (hx : ∀ n ∈ p.given, HasFDerivAt (fun q => x q n) (d₀ n) q₀) (h₀ : ∀ n, n ∉ p.given → d₀ n = 0)
    (hexact : ∀ u ∈ p.order, (D u).ExactAt fun i =>
      p.history s (cs ++ [.residuals (x q₀), .linearize (x q₀)]) (p.comp u).reads[i]) :
    ∃ d : (n : String) → P →L[ℝ] E n,
      (∀ d', TotalSystem (· ∈ p.order) p.comp D (p.history s (cs ++ [.residuals (x q₀), .linearize (x q₀)])) d₀ d'
        ↔ d' = d) ∧
      ∀ n, (∃ u ∈ p.order, n ∈ (p.comp u).writes) → ∀ s' cs',
        HasFDerivAt (fun q => p.after (p.history s' cs') (.residuals (x q)) n) (d n) q₀ := by
  set S := p.history s cs with hS
  have hpoint : p.history s (cs ++ [.residuals (x q₀), .linearize (x q₀)])
      = runAll (p.order.map p.comp) (p.setValues (x q₀) S) := by
    rw [ImplProb.history, List.foldl_append]
    show p.after (p.after S (.residuals (x q₀))) (.linearize (x q₀)) = _
    funext n
    simp only [ImplProb.after]
    by_cases hn : n ∈ p.given
    · rw [runAll_untouched _ _ (ok.given n hn)]
      simp [ImplProb.setValues, hn]
    · simp [ImplProb.setValues, hn]
  rw [hpoint] at hexact ⊢
  have hinit : ∀ n, HasFDerivAt (fun q => p.setValues (x q) S n) (d₀ n) q₀ := by
    intro n
    by_cases hn : n ∈ p.given
    · simpa [ImplProb.setValues, hn] using hx n hn
    · simp only [ImplProb.setValues, hn, if_false, h₀ n hn]
      exact hasFDerivAt_const _ _
  have hsys : TotalSystem (· ∈ p.order) p.comp D (runAll (p.order.map p.comp) (p.setValues (x q₀) S)) d₀
      (runAll (p.order.map fun u => tangentComp P (p.comp u) (D u)
        (runAll (p.order.map p.comp) (p.setValues (x q₀) S))) d₀) :=
    ⟨fun n hn => runAll_untouched (comp := fun u => tangentComp P (p.comp u) (D u)
        (runAll (p.order.map p.comp) (p.setValues (x q₀) S))) p.order d₀ hn,
      fun u hu n hn => runAll_fixed (comp := fun u => tangentComp P (p.comp u) (D u)
        (runAll (p.order.map p.comp) (p.setValues (x q₀) S))) ok.nodup ok.own ok.reads' d₀ hu hn⟩
  have hder := fun d hd => total_hasFDerivAt (d := d) ok.nodup ok.own ok.reads' (fun n _ => hinit n) hexact hd
  refine ⟨_, fun d' => ⟨fun hd => funext fun n => (hder d' hd n).unique (hder _ hsys n), fun hd => hd ▸ hsys⟩, ?_⟩
  intro n hn s' cs'
  refine (hder _ hsys n).congr_of_eventuallyEq (Filter.Eventually.of_forall fun q => ?_)
  exact (c73_residuals ok s' cs' (x q) n hn _).2 ((c73_residuals ok s cs (x q) n hn _).1 rfl)

/-- If no partial depends on a value that the internal problem computes, `linearize` gives the same system with and
without a run before. -/
theorem totalSystem_linearize {p : ImplProb E} (D : (u : Ref) → Partials (p.comp u)) (s : Store E)
    (cs : List (ImplCall E)) (x : Store E) (d₀ d : (n : String) → P →L[ℝ] E n)
    (hD : ∀ u ∈ p.order, ∀ a b : (i : Fin (p.comp u).reads.length) → E (p.comp u).reads[i],
      (∀ i, (p.comp u).reads[i] ∈ p.given → a i = b i) → D u a = D u b) :
    TotalSystem (· ∈ p.order) p.comp D (p.history s (cs ++ [.linearize x])) d₀ d ↔
      TotalSystem (· ∈ p.order) p.comp D (p.history s (cs ++ [.residuals x, .linearize x])) d₀ d := by
  have hpt : ∀ u ∈ p.order, (D u fun i => p.history s (cs ++ [.linearize x]) (p.comp u).reads[i])
      = D u fun i => p.history s (cs ++ [.residuals x, .linearize x]) (p.comp u).reads[i] := by
    intro u hu
    refine hD u hu _ _ fun i hi => ?_
    simp only [ImplProb.history, List.foldl_append, List.foldl_cons, List.foldl_nil, ImplProb.after]
    rw [ImplProb.setValues, if_pos hi, ImplProb.setValues, if_pos hi]
  refine and_congr_right fun _ => forall_congr' fun u => forall_congr' fun hu => ?_
  rw [hpt u hu]

/-- **C73, derivatives after any call.** If no partial depends on a value that the internal problem computes (every
expression built on another one of the residual is linear in it), then what was asked for before `linearize` does not
matter: the system that `compute_totals` solves has exactly one solution, and it gives the derivatives of the residuals at
the values handed to `linearize`. -/
theorem c73_jacobian_linear_partial {p : ImplProb E} (ok : p.Ok) (D : (u : Ref) → Partials (p.comp u)) (s : Store E)
    (cs : List (ImplCall E)) (x : P → Store E) (q₀ : P) (d₀ : (n : String) → P →L[ℝ] E n)
    (hx : ∀ n ∈ p.given, HasFDerivAt (fun q => x q n) (d₀ n) q₀) (h₀ : ∀ n, n ∉ p.given → d₀ n = 0)
    (hD : ∀ u ∈ p.order, ∀ a b : (i : Fin (p.comp u).reads.length) → E (p.comp u).reads[i],
      (∀ i, (p.comp u).reads[i] ∈ p.given → a i = b i) → D u a = D u b)
    (hexact : ∀ u ∈ p.order, ∀ a, (D u).ExactAt a) :
    ∃ d : (n : String) → P →L[ℝ] E n,
      (∀ d', TotalSystem (· ∈ p.order) p.comp D (p.history s (cs ++ [.linearize (x q₀)])) d₀ d' ↔ d' = d) ∧
      ∀ n, (∃ u ∈ p.order, n ∈ (p.comp u).writes) → ∀ s' cs',
        HasFDerivAt (fun q => p.after (p.history s' cs') (.residuals (x q)) n) (d n) q₀ := by
  obtain ⟨d, h1, h2⟩ := c73_jacobian_partial ok D s cs x q₀ d₀ hx h₀ fun u hu => hexact u hu _
  exact ⟨d, fun d' => (totalSystem_linearize D s cs (x q₀) d₀ d' hD).trans (h1 d'), h2⟩

end

/-! ## A residual with an intermediate value: `e = y * y`, `r = e * y - c` -/

def cubeComp (c : ℝ) : Ref → Comp fun _ => ℝ
  | 1 => ⟨["y"], ["e"], fun a _ => a 0 * a 0⟩
  | 2 => ⟨["e", "y"], ["r"], fun a _ => a 0 * a 1 - c⟩
  | _ => ⟨[], [], fun _ _ => 0⟩

/-- The residual `y * y * y - c` of the output `y`. -/
def cubeProb (c : ℝ) : ImplProb fun _ => ℝ := ⟨[1, 2], cubeComp c, ["y"]⟩

noncomputable def cubePartials (c : ℝ) : (u : Ref) → Partials (cubeComp c u)
  | 1 => fun a _ _ => (2 * a (0 : Fin 1)) • ContinuousLinearMap.id ℝ ℝ
  | 2 => fun a _ i => (if i.1 = 0 then a (1 : Fin 2) else a (0 : Fin 2)) • ContinuousLinearMap.id ℝ ℝ
  | _ + 3 => fun _ _ _ => 0
  | 0 => fun _ _ _ => 0

theorem cube_ok (c : ℝ) : (cubeProb c).Ok := by
  refine ⟨by simp [cubeProb], ?_, ?_, ?_⟩
  · intro u v n hu hv
    simp only [cubeProb, List.mem_cons, List.not_mem_nil, or_false] at hu hv
    rcases hu with rfl | rfl <;> rcases hv with rfl | rfl <;> simp [cubeProb, cubeComp] <;> rintro rfl <;> decide
  · intro u hu n hn
    simp only [cubeProb, List.mem_cons, List.not_mem_nil, or_false] at hu
    have hy : ∀ v ∈ (cubeProb c).order, "y" ∉ ((cubeProb c).comp v).writes := by
      intro v hv
      simp only [cubeProb, List.mem_cons, List.not_mem_nil, or_false] at hv
      rcases hv with rfl | rfl <;> simp [cubeProb, cubeComp]
    rcases hu with rfl | rfl
    · obtain rfl : n = "y" := by simpa [cubeProb, cubeComp] using hn
      exact Or.inl ⟨hy, by simp [cubeProb]⟩
    · have : n = "e" ∨ n = "y" := by simpa [cubeProb, cubeComp] using hn
      rcases this with rfl | rfl
      · exact Or.inr ⟨1, ⟨[], [], [], rfl⟩, by simp [cubeProb, cubeComp]⟩
      · exact Or.inl ⟨hy, by simp [cubeProb]⟩
  · intro n hn v hv
    simp only [cubeProb, List.mem_cons, List.not_mem_nil, or_false] at hn hv
    subst hn
    rcases hv with rfl | rfl <;> simp [cubeProb, cubeComp]

theorem cube_residual (c : ℝ) (s : Store fun _ => ℝ) (x : Store fun _ => ℝ) :
    (cubeProb c).after s (.residuals x) "e" = x "y" * x "y" ∧
    (cubeProb c).after s (.residuals x) "r" = x "y" * x "y" * x "y" - c := by
  constructor <;> simp [ImplProb.after, cubeProb, cubeComp, runAll, Comp.run, ImplProb.setValues]

/-- What `linearize` reports at `y`, if `y₀` was the last value with which the internal problem was run. -/
theorem cube_totals (c : ℝ) {S : Store fun _ => ℝ} {y₀ y : ℝ} (he : S "e" = y₀ * y₀) (hy : S "y" = y)
    {d₀ d : String → ℝ →L[ℝ] ℝ} (hd : d₀ "y" = ContinuousLinearMap.id ℝ ℝ)
    (h : TotalSystem (· ∈ (cubeProb c).order) (cubeProb c).comp (cubePartials c) S d₀ d) :
    d "r" = (y₀ * y₀ + 2 * (y * y)) • ContinuousLinearMap.id ℝ ℝ := by
  obtain ⟨h1, h2⟩ := h
  have ey : d "y" = ContinuousLinearMap.id ℝ ℝ := by
    rw [h1 "y" ?_, hd]
    intro v hv
    simp only [cubeProb, List.mem_cons, List.not_mem_nil, or_false] at hv
    rcases hv with rfl | rfl <;> simp [cubeProb, cubeComp]
  have ee : d "e" = (2 * S "y") • d "y" := by
    refine (h2 1 (by simp [cubeProb]) "e" (by simp [cubeProb, cubeComp])).trans ?_
    show ∑ i : Fin 1, ((2 * S "y") • ContinuousLinearMap.id ℝ ℝ).comp (d ((["y"] : List String)[i])) = _
    rw [Fin.sum_univ_one]
    rfl
  have er : d "r" = S "y" • d "e" + S "e" • d "y" := by
    refine (h2 2 (by simp [cubeProb]) "r" (by simp [cubeProb, cubeComp])).trans ?_
    show ∑ i : Fin 2, ((if i.1 = 0 then S "y" else S "e") • ContinuousLinearMap.id ℝ ℝ).comp
      (d ((["e", "y"] : List String)[i])) = _
    rw [Fin.sum_univ_two]
    rfl
  rw [er, ee, ey, he, hy]
  ext
  simp
  ring

theorem cube_not_exact (c : ℝ) {S : Store fun _ => ℝ} {y₀ y : ℝ} (he : S "e" = y₀ * y₀) (hy : S "y" = y)
    (hne : y₀ ^ 2 ≠ y ^ 2) {d₀ d : String → ℝ →L[ℝ] ℝ} (hd : d₀ "y" = ContinuousLinearMap.id ℝ ℝ)
    (h : TotalSystem (· ∈ (cubeProb c).order) (cubeProb c).comp (cubePartials c) S d₀ d) (s : Store fun _ => ℝ) :
    ¬ HasFDerivAt (fun q => (cubeProb c).after s (.residuals fun _ => q) "r") (d "r") y := by
  refine fun hf => hne ?_
  have e : (fun q => (cubeProb c).after s (.residuals fun _ => q) "r") = fun q : ℝ => q * q * q - c :=
    funext fun q => (cube_residual c s _).2
  rw [e, cube_totals c he hy hd h] at hf
  have h1 := hf.hasDerivAt
  have h2 : HasDerivAt (fun q : ℝ => q * q * q - c) ((1 * y + y * 1) * y + y * y * 1) y :=
    (((hasDerivAt_id y).mul (hasDerivAt_id y)).mul (hasDerivAt_id y)).sub_const c
  have := h1.unique h2
  simp at this
  nlinarith

/-- **C73, refuted.** `linearize` does not run the internal problem. Asked for the derivative at `y` after the residual
was computed at `y₀`, it reports `y₀ ^ 2 + 2 * y ^ 2`; the derivative of the residual is `3 * y ^ 2`. -/
theorem c73_stale_violated (c y₀ y : ℝ) (hne : y₀ ^ 2 ≠ y ^ 2) (s : Store fun _ => ℝ) (d₀ d : String → ℝ →L[ℝ] ℝ)
    (hd : d₀ "y" = ContinuousLinearMap.id ℝ ℝ)
    (h : TotalSystem (· ∈ (cubeProb c).order) (cubeProb c).comp (cubePartials c)
      ((cubeProb c).history s [.residuals fun _ => y₀, .linearize fun _ => y]) d₀ d) :
    d "r" = (y₀ * y₀ + 2 * (y * y)) • ContinuousLinearMap.id ℝ ℝ ∧
    ¬ HasFDerivAt (fun q => (cubeProb c).after s (.residuals fun _ => q) "r") (d "r") y := by
  have he : (cubeProb c).history s [.residuals fun _ => y₀, .linearize fun _ => y] "e" = y₀ * y₀ := by
    show (cubeProb c).setValues (fun _ => y) ((cubeProb c).after s (.residuals fun _ => y₀)) "e" = _
    simp only [ImplProb.setValues]
    rw [if_neg (by simp [cubeProb])]
    exact (cube_residual c s fun _ => y₀).1
  have hy : (cubeProb c).history s [.residuals fun _ => y₀, .linearize fun _ => y] "y" = y := by
    show (cubeProb c).setValues (fun _ => y) ((cubeProb c).after s (.residuals fun _ => y₀)) "y" = _
    simp only [ImplProb.setValues]
    rw [if_pos (by simp [cubeProb])]
  exact ⟨cube_totals c he hy hd h, cube_not_exact c he hy hne hd h s⟩

/-! ## All compositions of two functions: `e = g(y)`, `r = h(e)` -/

def chainComp (g h : ℝ → ℝ) : Ref → Comp fun _ => ℝ
  | 1 => ⟨["y"], ["e"], fun a _ => g (a 0)⟩
  | 2 => ⟨["e"], ["r"], fun a _ => h (a 0)⟩
  | _ => ⟨[], [], fun _ _ => 0⟩

/-- The residual `h(g(y))` of the output `y`. -/
def chainProb (g h : ℝ → ℝ) : ImplProb fun _ => ℝ := ⟨[1, 2], chainComp g h, ["y"]⟩

/-- The partials of the two components, with the derivatives `g'` and `h'`. -/
noncomputable def chainPartials (g h g' h' : ℝ → ℝ) : (u : Ref) → Partials (chainComp g h u)
  | 1 => fun a _ _ => g' (a (0 : Fin 1)) • ContinuousLinearMap.id ℝ ℝ
  | 2 => fun a _ _ => h' (a (0 : Fin 1)) • ContinuousLinearMap.id ℝ ℝ
  | _ + 3 => fun _ _ _ => 0
  | 0 => fun _ _ _ => 0

theorem chain_ok (g h : ℝ → ℝ) : (chainProb g h).Ok := by
  have hy : ∀ v ∈ (chainProb g h).order, "y" ∉ ((chainProb g h).comp v).writes := by
    intro v hv
    simp only [chainProb, List.mem_cons, List.not_mem_nil, or_false] at hv
    rcases hv with rfl | rfl <;> simp [chainProb, chainComp]
  refine ⟨by simp [chainProb], ?_, ?_, ?_⟩
  · intro u v n hu hv
    simp only [chainProb, List.mem_cons, List.not_mem_nil, or_false] at hu hv
    rcases hu with rfl | rfl <;> rcases hv with rfl | rfl <;> simp [chainProb, chainComp] <;> rintro rfl <;> decide
  · intro u hu n hn
    simp only [chainProb, List.mem_cons, List.not_mem_nil, or_false] at hu
    rcases hu with rfl | rfl
    · obtain rfl : n = "y" := by simpa [chainProb, chainComp] using hn
      exact Or.inl ⟨hy, by simp [chainProb]⟩
    · obtain rfl : n = "e" := by simpa [chainProb, chainComp] using hn
      exact Or.inr ⟨1, ⟨[], [], [], rfl⟩, by simp [chainProb, chainComp]⟩
  · intro n hn v hv
    obtain rfl : n = "y" := by simpa [chainProb] using hn
    exact hy v hv

theorem chain_exact {g h g' h' : ℝ → ℝ} (hg : ∀ y, HasDerivAt g (g' y) y) (hh : ∀ e, HasDerivAt h (h' e) e)
    (u : Ref) (x) : (chainPartials g h g' h' u).ExactAt x := by
  match u, x with
  | 1, x =>
    intro n _
    have h0 : HasFDerivAt (fun y : Fin 1 → ℝ => y 0)
        (ContinuousLinearMap.proj (R := ℝ) (φ := fun _ : Fin 1 => ℝ) 0) x := hasFDerivAt_apply _ _
    refine ((hg (x (0 : Fin 1))).hasFDerivAt.comp x h0).congr_fderiv ?_
    ext q
    show q (0 : Fin 1) * g' (x (0 : Fin 1)) = (∑ i : Fin 1, (g' (x (0 : Fin 1)) • ContinuousLinearMap.id ℝ ℝ).comp
      (ContinuousLinearMap.proj (R := ℝ) (φ := fun _ : Fin 1 => ℝ) i)) q
    rw [Fin.sum_univ_one]
    exact mul_comm _ _
  | 2, x =>
    intro n _
    have h0 : HasFDerivAt (fun y : Fin 1 → ℝ => y 0)
        (ContinuousLinearMap.proj (R := ℝ) (φ := fun _ : Fin 1 => ℝ) 0) x := hasFDerivAt_apply _ _
    refine ((hh (x (0 : Fin 1))).hasFDerivAt.comp x h0).congr_fderiv ?_
    ext q
    show q (0 : Fin 1) * h' (x (0 : Fin 1)) = (∑ i : Fin 1, (h' (x (0 : Fin 1)) • ContinuousLinearMap.id ℝ ℝ).comp
      (ContinuousLinearMap.proj (R := ℝ) (φ := fun _ : Fin 1 => ℝ) i)) q
    rw [Fin.sum_univ_one]
    exact mul_comm _ _
  | _ + 3, x => intro n hn; simp [chainComp] at hn
  | 0, x => intro n hn; simp [chainComp] at hn

theorem chain_totals (g h g' h' : ℝ → ℝ) {S : Store fun _ => ℝ} {d₀ d : String → ℝ →L[ℝ] ℝ}
    (hd : d₀ "y" = ContinuousLinearMap.id ℝ ℝ)
    (hs : TotalSystem (· ∈ (chainProb g h).order) (chainProb g h).comp (chainPartials g h g' h') S d₀ d) :
    d "r" = (h' (S "e") * g' (S "y")) • ContinuousLinearMap.id ℝ ℝ := by
  obtain ⟨h1, h2⟩ := hs
  have ey : d "y" = ContinuousLinearMap.id ℝ ℝ := by
    rw [h1 "y" ((chain_ok g h).given "y" (by simp [chainProb])), hd]
  have ee : d "e" = g' (S "y") • d "y" := by
    refine (h2 1 (by simp [chainProb]) "e" (by simp [chainProb, chainComp])).trans ?_
    show ∑ i : Fin 1, (g' (S "y") • ContinuousLinearMap.id ℝ ℝ).comp (d ((["y"] : List String)[i])) = _
    rw [Fin.sum_univ_one]
    rfl
  have er : d "r" = h' (S "e") • d "e" := by
    refine (h2 2 (by simp [chainProb]) "r" (by simp [chainProb, chainComp])).trans ?_
    show ∑ i : Fin 1, (h' (S "e") • ContinuousLinearMap.id ℝ ℝ).comp (d ((["e"] : List String)[i])) = _
    rw [Fin.sum_univ_one]
    rfl
  rw [er, ee, ey, smul_smul]

/-- **C73, exactly when the derivative is right.** For all differentiable `g` and `h` and the residual `h(g(y))`: asked
for the derivative at `y` after any calls and a run at `y₀`, `linearize` reports `h'(g(y₀)) * g'(y)`. This is the
derivative of the residual iff `g'(y) = 0` or `h'` has the same value at `g(y₀)` and `g(y)`. -/
theorem c73_chain_iff {g h g' h' : ℝ → ℝ} (hg : ∀ y, HasDerivAt g (g' y) y) (hh : ∀ e, HasDerivAt h (h' e) e)
    (s : Store fun _ => ℝ) (cs : List (ImplCall fun _ => ℝ)) (y₀ y : ℝ) (last : ImplCall fun _ => ℝ)
    (hlast : last = .residuals (fun _ => y₀) ∨ ∃ x, last = .trial x "y" y₀) (d₀ d : String → ℝ →L[ℝ] ℝ)
    (hd : d₀ "y" = ContinuousLinearMap.id ℝ ℝ)
    (hs : TotalSystem (· ∈ (chainProb g h).order) (chainProb g h).comp (chainPartials g h g' h')
      ((chainProb g h).history s (cs ++ [last, .linearize fun _ => y])) d₀ d) :
    d "r" = (h' (g y₀) * g' y) • ContinuousLinearMap.id ℝ ℝ ∧
    ((∀ s' cs', HasFDerivAt (fun q => (chainProb g h).after ((chainProb g h).history s' cs') (.residuals fun _ => q) "r")
      (d "r") y) ↔ g' y = 0 ∨ h' (g y₀) = h' (g y)) := by
  have he : (chainProb g h).history s (cs ++ [last, .linearize fun _ => y]) "e" = g y₀ := by
    simp only [ImplProb.history, List.foldl_append, List.foldl_cons, List.foldl_nil]
    generalize List.foldl (chainProb g h).after s cs = S
    rcases hlast with rfl | ⟨x, rfl⟩ <;>
      simp [ImplProb.after, chainProb, chainComp, runAll, Comp.run, ImplProb.setValues, Store.set]
  have hy : (chainProb g h).history s (cs ++ [last, .linearize fun _ => y]) "y" = y := by
    simp only [ImplProb.history, List.foldl_append, List.foldl_cons, List.foldl_nil]
    simp [ImplProb.after, ImplProb.setValues, chainProb]
  have hr := chain_totals g h g' h' hd hs
  rw [he, hy] at hr
  refine ⟨hr, ?_⟩
  have hres : ∀ S : Store fun _ => ℝ, (fun q => (chainProb g h).after S (.residuals fun _ => q) "r")
      = fun q : ℝ => h (g q) := by
    intro S
    funext q
    simp [ImplProb.after, chainProb, chainComp, runAll, Comp.run, ImplProb.setValues]
  have htrue : HasDerivAt (fun q : ℝ => h (g q)) (h' (g y) * g' y) y := HasDerivAt.comp y (hh (g y)) (hg y)
  simp only [hres, hr]
  constructor
  · intro hf
    have := (hf s []).hasDerivAt.unique htrue
    simp only [smul_apply, ContinuousLinearMap.id_apply, smul_eq_mul, mul_one] at this
    by_cases h0 : g' y = 0
    · exact Or.inl h0
    · exact Or.inr (mul_right_cancel₀ h0 this)
  · intro hc _ _
    have e : h' (g y₀) * g' y = h' (g y) * g' y := by
      rcases hc with h0 | h1
      · rw [h0, mul_zero, mul_zero]
      · rw [h1]
    rw [e]
    refine htrue.hasFDerivAt.congr_fderiv ?_
    ext
    simp

/-! ## After a bisection -/

/-- The last trial value of the bisection, implicit_component.py 226-228. -/
noncomputable def bisectLast (f : Arr → Arr) (k : Nat) (x1 x2 : Arr) : Arr :=
  let s := (bisectStep f)^[k - 1] (bisectStart f x1 x2)
  fun i => 0.5 * s.1 i + 0.5 * s.2 i

theorem bisect_width (f : Arr → Arr) (x1 x2 : Arr) (i : Nat) (k : Nat) :
    let s := (bisectStep f)^[k] (bisectStart f x1 x2)
    |s.1 i - s.2 i| = |x1 i - x2 i| / 2 ^ k ∧ min (x1 i) (x2 i) ≤ min (s.1 i) (s.2 i) := by
  induction k with
  | zero =>
    simp only [Function.iterate_zero, id, bisectStart, pow_zero, div_one]
    split
    · exact ⟨rfl, le_rfl⟩
    · exact ⟨abs_sub_comm _ _, by rw [min_comm]⟩
  | succ k ih =>
    rw [Function.iterate_succ_apply']
    generalize (bisectStep f)^[k] (bisectStart f x1 x2) = s at ih
    obtain ⟨h1, h2⟩ := ih
    simp only [bisectStep]
    have hmid : min (s.1 i) (s.2 i) ≤ 0.5 * s.1 i + 0.5 * s.2 i := by
      rcases le_total (s.1 i) (s.2 i) with h | h
      · rw [min_eq_left h]; linarith
      · rw [min_eq_right h]; linarith
    by_cases h : 0 ≤ f (fun i => 0.5 * s.1 i + 0.5 * s.2 i) i
    · rw [if_pos h, if_neg h.not_gt]
      refine ⟨?_, h2.trans (le_min hmid (min_le_right _ _))⟩
      rw [show 0.5 * s.1 i + 0.5 * s.2 i - s.2 i = (s.1 i - s.2 i) / 2 by ring, abs_div, abs_two, h1, pow_succ]
      ring
    · rw [if_neg h, if_pos (not_le.1 h)]
      refine ⟨?_, h2.trans (le_min (min_le_left _ _) hmid)⟩
      rw [show s.1 i - (0.5 * s.1 i + 0.5 * s.2 i) = (s.1 i - s.2 i) / 2 by ring, abs_div, abs_two, h1, pow_succ]
      ring

/-- **C73, after `solve_nonlinear`.** The value that the bisection returns is not the one with which it ran the internal
problem last: they differ by the width of the bracket divided by `2 ^ (k + 1)`, for every residual. -/
theorem c73_after_bisection (f : Arr → Arr) (x1 x2 : Arr) (i : Nat) (k : Nat) (hk : 0 < k) :
    |bisect f k x1 x2 i - bisectLast f k x1 x2 i| = |x1 i - x2 i| / 2 ^ (k + 1) := by
  obtain ⟨k, rfl⟩ := Nat.exists_eq_succ_of_ne_zero hk.ne'
  simp only [bisect, bisectLast, Nat.succ_eq_add_one, Nat.add_sub_cancel]
  rw [Function.iterate_succ_apply']
  have h1 := (bisect_width f x1 x2 i k).1
  generalize (bisectStep f)^[k] (bisectStart f x1 x2) = s at h1
  simp only [bisectStep]
  have h2 : |x1 i - x2 i| / 2 ^ (k + 1 + 1) = |s.1 i - s.2 i| / 4 := by
    rw [h1, pow_succ, pow_succ]
    ring
  rw [h2]
  by_cases h : 0 ≤ f (fun i => 0.5 * s.1 i + 0.5 * s.2 i) i
  · rw [if_pos h, if_neg h.not_gt, show 0.5 * (0.5 * s.1 i + 0.5 * s.2 i) + 0.5 * s.2 i - (0.5 * s.1 i + 0.5 * s.2 i)
      = -((s.1 i - s.2 i) / 4) by ring, abs_neg, abs_div]
    norm_num
  · rw [if_neg h, if_pos (not_le.1 h), show 0.5 * s.1 i + 0.5 * (0.5 * s.1 i + 0.5 * s.2 i) - (0.5 * s.1 i + 0.5 * s.2 i)
      = (s.1 i - s.2 i) / 4 by ring, abs_div]
    norm_num

theorem bisect_pos (f : Arr → Arr) {x1 x2 : Arr} {i : Nat} (h1 : 0 < x1 i) (h2 : 0 < x2 i) (k : Nat) :
    0 < bisect f k x1 x2 i ∧ 0 < bisectLast f k x1 x2 i := by
  have key : ∀ k, 0 < 0.5 * ((bisectStep f)^[k] (bisectStart f x1 x2)).1 i
      + 0.5 * ((bisectStep f)^[k] (bisectStart f x1 x2)).2 i := by
    intro k
    have h := lt_min_iff.1 ((lt_min h1 h2).trans_le (bisect_width f x1 x2 i k).2)
    linarith [h.1, h.2]
  exact ⟨key k, key (k - 1)⟩

/-- The runs of the internal problem that `solve_nonlinear` makes for an output `out` with one entry, 213-232. -/
noncomputable def solveCalls (x : Store fun _ => ℝ) (out : String) (f : Arr → Arr) (k : Nat) (x1 x2 : Arr) :
    List (ImplCall fun _ => ℝ) :=
  [.trial x out (x1 0), .trial x out (x2 0)] ++ (List.range k).map fun j =>
    .trial x out (0.5 * ((bisectStep f)^[j] (bisectStart f x1 x2)).1 0
      + 0.5 * ((bisectStep f)^[j] (bisectStart f x1 x2)).2 0)

/-- **C73, refuted.** `solve_nonlinear` followed by `linearize` at the solution: with a bracket of two different positive
numbers and at least one round the derivative reported for the residual `y * y * y - c` is wrong. -/
theorem c73_solve_violated (c a b : ℝ) (ha : 0 < a) (hab : a < b) (k : Nat) (hk : 0 < k) (s x : Store fun _ => ℝ)
    (f : Arr → Arr) (hf : ∀ z i, f z i = z i * z i * z i - c) (y : ℝ)
    (hy : y = bisect f k (fun _ => a) (fun _ => b) 0) (d₀ d : String → ℝ →L[ℝ] ℝ)
    (hd : d₀ "y" = ContinuousLinearMap.id ℝ ℝ)
    (h : TotalSystem (· ∈ (cubeProb c).order) (cubeProb c).comp (cubePartials c)
      ((cubeProb c).history s (solveCalls x "y" f k (fun _ => a) (fun _ => b) ++ [.linearize fun _ => y])) d₀ d) :
    (∀ S z, f (fun _ => z) 0 = (cubeProb c).after S (.trial x "y" z) "r") ∧
    ¬ HasFDerivAt (fun q => (cubeProb c).after s (.residuals fun _ => q) "r") (d "r") y := by
  have htrial : ∀ (S : Store fun _ => ℝ) (z : ℝ), (cubeProb c).after S (.trial x "y" z) "e" = z * z ∧
      (cubeProb c).after S (.trial x "y" z) "r" = z * z * z - c := by
    intro S z
    constructor <;> simp [ImplProb.after, cubeProb, cubeComp, runAll, Comp.run, Store.set, Function.update]
  refine ⟨fun S z => (hf _ _).trans (htrial S z).2.symm, ?_⟩
  obtain ⟨k, rfl⟩ := Nat.exists_eq_succ_of_ne_zero hk.ne'
  have hlast : ∃ S, (cubeProb c).history s (solveCalls x "y" f (k + 1) (fun _ => a) (fun _ => b)
      ++ [.linearize fun _ => y]) = (cubeProb c).setValues (fun _ => y)
        ((cubeProb c).after S (.trial x "y" (bisectLast f (k + 1) (fun _ => a) (fun _ => b) 0))) := by
    refine ⟨(cubeProb c).history s (solveCalls x "y" f k (fun _ => a) (fun _ => b)), ?_⟩
    simp only [solveCalls, List.range_succ, List.map_append, ImplProb.history, List.foldl_append, List.map_cons,
      List.map_nil, List.foldl_cons, List.foldl_nil]
    rfl
  obtain ⟨S, hS⟩ := hlast
  rw [Nat.succ_eq_add_one, hS] at h
  refine cube_not_exact c (y₀ := bisectLast f (k + 1) (fun _ => a) (fun _ => b) 0) ?_ ?_ ?_ hd h s
  · simp only [ImplProb.setValues]
    rw [if_neg (by simp [cubeProb])]
    exact (htrial S _).1
  · simp only [ImplProb.setValues]
    rw [if_pos (by simp [cubeProb])]
  · have h1 := c73_after_bisection f (fun _ => a) (fun _ => b) 0 (k + 1) hk
    obtain ⟨h2, h3⟩ := bisect_pos f (x1 := fun _ => a) (x2 := fun _ => b) (i := 0) ha (ha.trans hab) (k + 1)
    intro he
    have he' := (pow_left_inj₀ h3.le (hy ▸ h2.le) two_ne_zero).1 he
    rw [he', hy, Nat.succ_eq_add_one, sub_self, abs_zero] at h1
    have : 0 < |a - b| / 2 ^ (k + 1 + 1) := by
      have := abs_pos.2 (sub_ne_zero.2 hab.ne)
      positivity
    linarith

/-! ## Examples -/

theorem cube_exact (c : ℝ) (u : Ref) (x) : (cubePartials c u).ExactAt x := by
  match u, x with
  | 1, x =>
    intro n _
    have h0 : HasFDerivAt (fun y : Fin 1 → ℝ => y 0)
        (ContinuousLinearMap.proj (R := ℝ) (φ := fun _ : Fin 1 => ℝ) 0) x := hasFDerivAt_apply _ _
    refine (h0.mul h0).congr_fderiv ?_
    ext q
    show x (0 : Fin 1) * q (0 : Fin 1) + x (0 : Fin 1) * q (0 : Fin 1) = _
    show _ = (∑ i : Fin 1, ((2 * x (0 : Fin 1)) • ContinuousLinearMap.id ℝ ℝ).comp
      (ContinuousLinearMap.proj (R := ℝ) (φ := fun _ : Fin 1 => ℝ) i)) q
    simp; ring
  | 2, x =>
    intro n _
    have h0 : ∀ i : Fin 2, HasFDerivAt (fun y : Fin 2 → ℝ => y i)
        (ContinuousLinearMap.proj (R := ℝ) (φ := fun _ : Fin 2 => ℝ) i) x := fun i => hasFDerivAt_apply _ _
    refine (((h0 0).mul (h0 1)).sub_const c).congr_fderiv ?_
    ext q
    show x (0 : Fin 2) * q (1 : Fin 2) + x (1 : Fin 2) * q (0 : Fin 2) = _
    show _ = (∑ i : Fin 2, ((if i.1 = 0 then x (1 : Fin 2) else x (0 : Fin 2)) • ContinuousLinearMap.id ℝ ℝ).comp
      (ContinuousLinearMap.proj (R := ℝ) (φ := fun _ : Fin 2 => ℝ) i)) q
    simp [Fin.sum_univ_two]; ring
  | _ + 3, x => intro n hn; simp [cubeComp] at hn
  | 0, x => intro n hn; simp [cubeComp] at hn

/-- The hypotheses of `c73_residuals` and `c73_trial` hold for `y * y * y - c`. -/
example (c : ℝ) (s x : Store fun _ => ℝ) (cs : List (ImplCall fun _ => ℝ)) :
    Eval (· ∈ (cubeProb c).order) (cubeProb c).comp x "r" (x "y" * x "y" * x "y" - c) :=
  (c73_residuals (cube_ok c) s cs x "r" ⟨2, by simp [cubeProb], by simp [cubeProb, cubeComp]⟩ _).1
    (cube_residual c _ x).2

example (c : ℝ) (s x : Store fun _ => ℝ) (cs : List (ImplCall fun _ => ℝ)) :
    Eval (· ∈ (cubeProb c).order) (cubeProb c).comp (Function.update x "y" 2) "r" (8 - c) :=
  (c73_trial (cube_ok c) s cs x "y" (by simp [cubeProb]) 2 "r"
    ⟨2, by simp [cubeProb], by simp [cubeProb, cubeComp]⟩ _).1
    (by simp [ImplProb.after, cubeProb, cubeComp, runAll, Comp.run, Store.set, Function.update]; norm_num)

/-- The hypotheses of `c73_jacobian_partial` hold for `y * y * y - c`, by `y`. -/
noncomputable example (c q₀ : ℝ) (s : Store fun _ => ℝ) (cs : List (ImplCall fun _ => ℝ)) :=
  c73_jacobian_partial (P := ℝ) (cube_ok c) (cubePartials c) s cs (fun q _ => q) q₀
    (fun n => if n = "y" then ContinuousLinearMap.id ℝ ℝ else 0)
    (by
      intro n hn
      obtain rfl : n = "y" := by simpa [cubeProb] using hn
      exact hasFDerivAt_id _)
    (by
      intro n hn
      rw [if_neg (by simpa [cubeProb] using hn)])
    fun u _ => cube_exact c u _

/-- The system of `c73_stale_violated` and `c73_solve_violated` has a solution at every point. -/
example (c : ℝ) (S : Store fun _ => ℝ) : ∃ d : String → ℝ →L[ℝ] ℝ,
    TotalSystem (· ∈ (cubeProb c).order) (cubeProb c).comp (cubePartials c) S (fun _ => ContinuousLinearMap.id ℝ ℝ) d :=
  ⟨runAll ((cubeProb c).order.map fun u => tangentComp ℝ ((cubeProb c).comp u) (cubePartials c u) S)
      fun _ => ContinuousLinearMap.id ℝ ℝ,
    fun _ hn => runAll_untouched (comp := fun u => tangentComp ℝ ((cubeProb c).comp u) (cubePartials c u) S)
      (cubeProb c).order _ hn,
    fun _ hu _ hn => runAll_fixed (comp := fun u => tangentComp ℝ ((cubeProb c).comp u) (cubePartials c u) S)
      (cube_ok c).nodup (cube_ok c).own (cube_ok c).reads' _ hu hn⟩

/-- With the bracket `1`, `2` and one round the difference is `1 / 4`. -/
example (f : Arr → Arr) : |bisect f 1 (fun _ => 1) (fun _ => 2) 0 - bisectLast f 1 (fun _ => 1) (fun _ => 2) 0| = 1 / 4 := by
  rw [c73_after_bisection f _ _ 0 1 one_pos]
  norm_num

/-- The hypotheses of `c73_jacobian_linear_partial` hold for `e = g(y)`, `r = 3 * e - 1`, whatever was asked for before. -/
noncomputable example {g g' : ℝ → ℝ} (hg : ∀ y, HasDerivAt g (g' y) y) (q₀ : ℝ) (s : Store fun _ => ℝ)
    (cs : List (ImplCall fun _ => ℝ)) :=
  c73_jacobian_linear_partial (P := ℝ) (chain_ok g fun e => 3 * e - 1) (chainPartials g (fun e => 3 * e - 1) g' fun _ => 3)
    s cs (fun q _ => q) q₀ (fun n => if n = "y" then ContinuousLinearMap.id ℝ ℝ else 0)
    (by
      intro n hn
      obtain rfl : n = "y" := by simpa [chainProb] using hn
      exact hasFDerivAt_id _)
    (by
      intro n hn
      rw [if_neg (by simpa [chainProb] using hn)])
    (by
      intro u hu a b hab
      simp only [chainProb, List.mem_cons, List.not_mem_nil, or_false] at hu
      rcases hu with rfl | rfl
      · have h0 : a (0 : Fin 1) = b (0 : Fin 1) := hab (0 : Fin 1) (by simp [chainProb, chainComp])
        funext n i
        show g' (a (0 : Fin 1)) • _ = g' (b (0 : Fin 1)) • _
        rw [h0]
      · rfl)
    fun u _ a => chain_exact hg (fun e => by
      have := ((hasDerivAt_id e).const_mul 3).sub_const 1
      rwa [mul_one] at this) u a

/-- `(3 * y) * (3 * y)` after a run at `0`: the derivative at `1` is wrong. -/
example (s : Store fun _ => ℝ) (cs : List (ImplCall fun _ => ℝ)) (d₀ d : String → ℝ →L[ℝ] ℝ)
    (hd : d₀ "y" = ContinuousLinearMap.id ℝ ℝ)
    (hs : TotalSystem (· ∈ (chainProb (fun y => 3 * y) fun e => e * e).order) (chainProb (fun y => 3 * y) fun e => e * e).comp
      (chainPartials (fun y => 3 * y) (fun e => e * e) (fun _ => 3) fun e => 2 * e)
      ((chainProb (fun y => 3 * y) fun e => e * e).history s (cs ++ [.residuals (fun _ => 0), .linearize fun _ => 1])) d₀ d) :
    ¬ ∀ s' cs', HasFDerivAt (fun q => (chainProb (fun y => 3 * y) fun e => e * e).after
      ((chainProb (fun y => 3 * y) fun e => e * e).history s' cs') (.residuals fun _ => q) "r") (d "r") 1 := by
  have hg : ∀ y : ℝ, HasDerivAt (fun y : ℝ => 3 * y) 3 y := fun y => by
    have := (hasDerivAt_id y).const_mul 3
    rwa [mul_one] at this
  have hh : ∀ e : ℝ, HasDerivAt (fun e : ℝ => e * e) (2 * e) e := fun e =>
    ((hasDerivAt_id e).mul (hasDerivAt_id e)).congr_deriv (by simp; ring)
  rw [(c73_chain_iff hg hh s cs 0 1 _ (Or.inl rfl) d₀ d hd hs).2]
  norm_num

end OM
