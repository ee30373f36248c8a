import Verif.Props.ImplProgram

/-!
# Derivatives of implicit components whose residuals are linear in the intermediate values (C73, C75)

`linearize` does not run the internal problem. This does no harm if only linear calls are made on computed values.
-/

namespace OM
open Spec

/-- Calls that are linear in their operands: sums, differences, multiples, and the functions that only move or add up
entries. -/
def Spec.LinearCall : Term → Prop
  | .add _ _ | .sub _ _ | .neg _ | .sum _ _ | .average _ _ | .transpose _ | .reorder _ _ _ | .reshape _ _
  | .expand _ _ _ => True
  | .mul (.ref _) (.const (.num _)) | .mul (.const (.num _)) (.ref _) | .div (.ref _) (.const (.num _)) => True
  | .pow _ p => p = 1
  | _ => False

theorem scale_coo {s : List Nat} {n : String} {k : ℝ} {B : Built}
    (h : builtPow (.ok (some ⟨s, [n], .one 1, .num k⟩)) = .ok B) (v v' : String → Nat → ℝ) {q : String}
    (hq : q ∈ B.ins.map Prod.fst) : B.coo v q = B.coo v' q := by
  simp [builtPow, PowOpts.setup, getPowersList, List.replicate] at h
  subst h
  obtain rfl : q = n := by simpa [Pow.ins] using hq
  simp [Built.coo, Pow.computePartials, Pow.mutate, Pow.deriv, Power.at]

/-- The partials of a linear call do not depend on the values of the operands. -/
theorem linearCall_coo {name : Ref → String} {shape : Ref → List Nat} {c : Term} {B : Built} (hl : LinearCall c)
    (hB : c.build name shape = .ok B) (v v' : String → Nat → ℝ) {q : String} (hq : q ∈ B.ins.map Prod.fst) :
    B.coo v q = B.coo v' q := by
  have hlin : ∀ o, builtLin o = .ok B → B.coo v q = B.coo v' q := by
    intro o h
    unfold builtLin at h
    split at h
    · cases h
    · cases h
    · split at h
      · cases h
      · obtain rfl := Except.ok.inj h
        rfl
  have hof : ∀ {β : Type} (d : Except PyErr β) (st : β → Except PyErr Unit) (f : β → Built)
      (_ : ∀ d, (f d).coo v = (f d).coo v'), builtOf d st f = .ok B → B.coo v q = B.coo v' q := by
    intro β d st f hf h
    unfold builtOf at h
    split at h
    · cases h
    · split at h
      · cases h
      · obtain rfl := Except.ok.inj h
        rw [hf]
  cases c with
  | add a b => exact hlin _ hB
  | sub a b => exact hlin _ hB
  | neg a => exact scale_coo hB v v' hq
  | mul a b =>
    cases a with
    | ref a =>
      cases b with
      | ref b => exact hl.elim
      | const b =>
        cases b with
        | num k => exact scale_coo hB v v' hq
        | arr k => exact hl.elim
    | const a =>
      cases a with
      | num k =>
        cases b with
        | ref b => exact scale_coo hB v v' hq
        | const b => exact hl.elim
      | arr k => exact hl.elim
  | div a b =>
    cases a with
    | ref a =>
      cases b with
      | ref b => exact hl.elim
      | const b =>
        cases b with
        | num k =>
          by_cases hk : k = 0
          · simp [Term.build, Arg.operand, pyOperator, buildDiv, hk, builtPow] at hB
          · refine scale_coo (s := shape a) (n := name a) (k := 1 / k) ?_ v v' hq
            rw [← hB]
            simp [Term.build, Arg.operand, pyOperator, buildDiv, hk]
        | arr k => exact hl.elim
    | const a => exact hl.elim
  | pow a p =>
    obtain rfl : p = 1 := hl
    exact scale_coo hB v v' hq
  | sum as axes =>
    simp only [Term.build] at hB
    split at hB
    · cases hB
    · obtain rfl := Except.ok.inj hB
      rfl
  | average as axes =>
    simp only [Term.build] at hB
    split at hB
    · cases hB
    · split at hB
      · cases hB
      · obtain rfl := Except.ok.inj hB
        rfl
  | transpose a => simp only [Term.build] at hB; exact hof _ _ _ (fun _ => rfl) hB
  | reorder a lhs rhs => simp only [Term.build] at hB; exact hof _ _ _ (fun _ => rfl) hB
  | reshape a s => simp only [Term.build] at hB; exact hof _ _ _ (fun _ => rfl) hB
  | expand a s i => simp only [Term.build] at hB; exact hof _ _ _ (fun _ => rfl) hB
  | _ => exact hl.elim

theorem outsD_congr {size : String → Nat} {outs : List (String × Built)}
    (h : ∀ p ∈ outs, ∀ (v v' : String → Nat → ℝ), ∀ q ∈ (insOf outs).map Prod.fst, p.2.coo v q = p.2.coo v' q)
    (a b : (i : Fin (outsComp size outs).reads.length) → FlatArr size (outsComp size outs).reads[i]) :
    outsD size outs a = outsD size outs b := by
  funext n i
  unfold outsD
  split
  · rfl
  · next p hp =>
    exact congrArg (fun C => cooL size C ((insOf outs).map Prod.fst)[i] n)
      (h p (List.mem_of_find?_eq_some hp) _ _ _ (List.getElem_mem i.2))

section
variable {genv : GEnv} {env : SetupEnv} {m : Meaning Unit} {prog : List ImplStmt} {l : Layout} {comps : List Ref}
  {iface : ImplInterface} {size : String → Nat}

local notation "W" => final genv (ops (explicitOf genv prog))
local notation "K" => wires genv (ops (explicitOf genv prog))

/-- If every call is linear or has only inputs and implicit outputs for operands, no partial depends on a value that is
computed. -/
theorem ImplCompiled.partials_given (h : ImplCompiled genv env m prog l comps iface size) (hpl : Flat prog)
    (hlin : ∀ a c b, explicitOf genv prog = a ++ .expr c :: b → LinearCall c ∨ ∀ u ∈ c.refs, (W).kind u = .input)
    {u : Ref} (hu : u ∈ comps) :
    let p := implProb genv prog l comps iface size
    ∀ a b : (i : Fin (p.comp u).reads.length) → FlatArr size (p.comp u).reads[i],
      (∀ i, (p.comp u).reads[i] ∈ iface.outs ++ iface.ins → a i = b i) →
      l.partials (implWorld genv prog) (wires genv (implOps prog)) size u a
        = l.partials (implWorld genv prog) (wires genv (implOps prog)) size u b := by
  intro p
  have hv := h.program.group.valid
  have key : ∀ outs, outs = l.outsOf W K u →
      ∀ a b : (i : Fin (outsComp size outs).reads.length) → FlatArr size (outsComp size outs).reads[i],
      (∀ i, (outsComp size outs).reads[i] ∈ iface.outs ++ iface.ins → a i = b i) →
      outsD size outs a = outsD size outs b := by
    rintro _ rfl a b hab
    obtain ⟨hneeds, hbuilt⟩ := h.part.arranged.needed u hu
    have hlt := comps_lt h.part.ok h.part.arranged hu
    cases hk : (W).kind u with
    | indep =>
      refine outsD_congr (fun p hp => ?_) a b
      rw [Layout.outsOf, hk] at hp
      simp at hp
    | subsystem =>
      refine outsD_congr (fun p hp => ?_) a b
      rw [Layout.outsOf, hk] at hp
      simp at hp
    | root => simp [World.built, hk] at hbuilt
    | input => simp [World.built, hk] at hbuilt
    | implicitOut => simp [World.built, hk] at hbuilt
    | item => simp [World.built, hk] at hbuilt
    | decomp =>
      refine outsD_congr (fun p hp => ?_) a b
      rw [Layout.outsOf, hk] at hp
      obtain ⟨o, -, rfl⟩ := List.mem_map.1 hp
      exact fun _ _ _ _ => rfl
    | explicitOut =>
      refine outsD_congr (fun p hp => ?_) a b
      rw [Layout.outsOf, hk] at hp
      simp only at hp
      split at hp <;> obtain rfl := List.mem_singleton.1 hp <;> exact fun _ _ _ _ => rfl
    | expr =>
      have h0 : 0 < u := by
        obtain ⟨c, _, hcu⟩ := Relation.TransGen.tail'_iff.1 hneeds
        exact (h.program.group.ok.range c u hcu).1
      obtain ⟨pa, c, pb, hp, hua⟩ := expr_from hv h0 hlt hk
      obtain ⟨B, h1, h2, -, h3⟩ := made_expr h.part.toCompiledOn hp hua hu
      rcases hlin pa c pb hp with hl | hin
      · refine outsD_congr (fun p hp => ?_) a b
        rw [h1] at hp ⊢
        obtain rfl := List.mem_singleton.1 hp
        exact fun v v' q hq => linearCall_coo hl h2 v v' hq
      · have hab' : a = b := by
          funext i
          refine hab i ?_
          have hmem : (outsComp size (l.outsOf W K u)).reads[i] ∈ (insOf (l.outsOf W K u)).map Prod.fst :=
            List.getElem_mem i.2
          obtain ⟨q, hq, e⟩ := List.mem_map.1 hmem
          rw [h1] at hq
          obtain ⟨v, hv', rfl⟩ := h3.insOf_wired.2.1 q hq
          rw [← e]
          obtain ⟨-, x, op, y, e2, hl⟩ := h3.needs v hv'
          exact h.given_of hu (link_edge h.program e2 hl) (hin v hv') (h.plain_leaf hpl)
        rw [hab']
  exact key _ (h.outsOf u)

/-- **C75, Jacobian after any call.** If every call of the program is linear or has only inputs and implicit outputs for
operands, then the Jacobian that `linearize` finds is the derivative of the residuals at the values that it is given,
whatever the component was asked for before. -/
theorem c75_jacobian_linear_partial {P : Type} [NormedAddCommGroup P] [NormedSpace ℝ P]
    (h : ImplCompiled genv env m prog l comps iface size) (hpl : Flat prog)
    (hlin : ∀ a c b, explicitOf genv prog = a ++ .expr c :: b → LinearCall c ∨ ∀ u ∈ c.refs, (W).kind u = .input)
    (s : Store (FlatArr size))
    (cs : List (ImplCall (FlatArr size))) (x : P → Store (FlatArr size)) (q₀ : P)
    (d₀ : (n : String) → P →L[ℝ] FlatArr size n) (hx : ∀ n ∈ iface.outs ++ iface.ins, HasFDerivAt (fun q => x q n) (d₀ n) q₀)
    (h₀ : ∀ n, n ∉ iface.outs ++ iface.ins → d₀ n = 0) :
    let p := implProb genv prog l comps iface size
    RunsDefined genv (explicitOf genv prog) l.shape comps
      (held l W (p.after (p.history s cs) (.residuals (x q₀)))) →
    ∃ d : (n : String) → P →L[ℝ] FlatArr size n,
      (∀ d', TotalSystem (· ∈ comps) p.comp (l.partials (implWorld genv prog) (wires genv (implOps prog)) size)
        (p.history s (cs ++ [.linearize (x q₀)])) d₀ d' ↔ d' = d) ∧
      ∀ r ∈ residualsOf genv prog, ∀ s' cs',
        HasFDerivAt (fun q => p.after (p.history s' cs') (.residuals (x q)) ((W).name r.1)) (d ((W).name r.1)) q₀ := by
  intro p hd
  obtain ⟨d, h1, h2⟩ := c75_jacobian_partial h hpl s cs x q₀ d₀ hx h₀ hd
  exact ⟨d, fun d' => (totalSystem_linearize (p := p) (l.partials (implWorld genv prog) (wires genv (implOps prog)) size)
    s cs (x q₀) d₀ d' fun u hu => h.partials_given hpl hlin hu).trans (h1 d'), h2⟩

end

/-- The hypotheses hold for the component for the square root: the only call on a computed value is `y ** 2 - x`. -/
example {m : Meaning Unit} (s : Store (FlatArr fun _ => 1)) (cs : List (ImplCall (FlatArr fun _ => 1)))
    (x₀ : Store (FlatArr fun _ => 1)) : ∃ l, ImplCompiled progGEnv demoEnv m rootProg l [3, 4] rootIface (fun _ => 1) ∧
    let p := implProb progGEnv rootProg l [3, 4] rootIface fun _ => 1
    ∃ d : (n : String) → (Fin 2 → ℝ) →L[ℝ] FlatArr (fun _ => 1) n, ∀ s' cs',
      HasFDerivAt (fun q : Fin 2 → ℝ => p.after (p.history s' cs')
        (.residuals fun n _ => if n = "x" then q 0 else if n = "y" then q 1 else 0) "____") (d "____")
        (fun i => if i = 0 then x₀ "x" 0 else x₀ "y" 0) := by
  obtain ⟨l, h, hl⟩ := root_compiled (m := m)
  refine ⟨l, h, ?_⟩
  intro p
  obtain ⟨d, -, h2⟩ := c75_jacobian_linear_partial (P := Fin 2 → ℝ) h root_plain (by
      intro a c b e
      obtain ⟨i, hi, rfl, he, _⟩ := split_prog (prog := rootExplicit) e
      change i < 6 at hi
      interval_cases i <;> simp [rootExplicit] at he <;> subst he
      · right
        intro u hu
        obtain rfl : u = 2 := by simpa [Term.refs] using hu
        decide
      · left
        trivial) s cs
    (fun q n _ => if n = "x" then q 0 else if n = "y" then q 1 else 0) (fun i => if i = 0 then x₀ "x" 0 else x₀ "y" 0)
    (fun n => ContinuousLinearMap.pi fun _ => if n = "x" then ContinuousLinearMap.proj 0 else
      if n = "y" then ContinuousLinearMap.proj 1 else 0)
    (by
      intro n hn
      rw [hasFDerivAt_pi]
      intro i
      split
      · exact hasFDerivAt_apply _ _
      · split
        · exact hasFDerivAt_apply _ _
        · exact hasFDerivAt_const _ _)
    (by
      intro n hn
      have : n ≠ "y" ∧ n ≠ "x" := by simpa [rootIface] using hn
      ext
      simp [this]) (root_defined _)
  exact ⟨d, h2 (4, "y") (by rw [root_residuals]; simp)⟩

end OM
