import Verif.Lemmas.Exec
import Verif.Props.Group

/-!
# Executing the generated components (C12, C13)
-/

namespace OM
open Spec

variable {V : String → Type}

/-- How the components of the nodes `N` of a dependency graph read and write: no two write the same
variable, and a variable that is read either is written by none of them (it is an input of the whole
group) or by a component the reader depends on. (After `out.define(e)` with `e` depending on `out`, the
second part fails by design: such a group has to be iterated.) -/
structure Wired (deps : Graph) (N : Ref → Prop) (comp : Ref → Comp V) : Prop where
  own : ∀ u v n, N u → N v → n ∈ (comp u).writes → n ∈ (comp v).writes → u = v
  reads : ∀ u, N u → ∀ n ∈ (comp u).reads,
    (∀ v, N v → n ∉ (comp v).writes) ∨ ∃ v, N v ∧ Needs deps u v ∧ n ∈ (comp v).writes

/-- **C12**, for any components, including subsystems and components with several outputs: running the
generated order once leaves in every variable the value found by recursive evaluation. -/
theorem c12_values {env : SetupEnv} {isIndep : Ref → Bool} {root : Ref} {deps : Graph}
    (h : WellFormed env isIndep root deps) {comp : Ref → Comp V}
    (hw : Wired deps (Needs deps root) comp) :
    ∃ l, execOrder env isIndep root (GState.fresh deps) = .ok l ∧
      ∀ init n v, runAll (l.map comp) init n = v ↔ Eval (Needs deps root) comp init n v := by
  obtain ⟨l, g1, h1, h2, h3, h4, h5⟩ := execOrder_ok h
  have hev : ∀ init n, Eval (Needs deps root) comp init n (runAll (l.map comp) init n) := by
    intro init n
    refine eval_congr h3 (runAll_eval h2 ?_ ?_ init n)
    · intro u v n hu hv
      exact hw.own u v n ((h3 u).1 hu) ((h3 v).1 hv)
    · intro u hu n hn
      rcases hw.reads u ((h3 u).1 hu) n hn with h | ⟨v, _, hv, hm⟩
      · exact Or.inl fun v hv => h v ((h3 v).1 hv)
      · refine Or.inr ⟨v, h5 u v hu ?_, hm⟩
        exact needs_mono (fun a b hab => Relation.TransGen.single ((h4 a b).2 (Or.inl hab))) hv
  refine ⟨l, h1, fun init n v => ⟨fun hv => hv ▸ hev init n, fun hv => ?_⟩⟩
  exact eval_unique hw.own (hev init n) hv

/-- **C12**, for the components of a group described by any history of API calls. -/
theorem c12_group_values {genv : GEnv} {env : SetupEnv} {ops : List Op} (h : GroupOk genv env ops)
    {comps : List Ref} (hc : setupGroup env (final genv ops) = .ok comps) {comp : Ref → Comp V}
    (hw : Wired (final genv ops).deps
      (fun u => Needs (final genv ops).deps 0 u ∧ (final genv ops).built u = true) comp)
    (init : Store V) (n : String) (v : V n) :
    runAll (comps.map comp) init n = v ↔
      Eval (fun u => Needs (final genv ops).deps 0 u ∧ (final genv ops).built u = true)
        comp init n v := by
  have hmem : comps.Nodup ∧ ∀ u, u ∈ comps ↔
      Needs (final genv ops).deps 0 u ∧ (final genv ops).built u = true := by
    obtain ⟨l, h2, h3, _, h4⟩ := setupGroup_eq h
    rw [h4] at hc
    by_cases hd : ∃ u ∈ l, (final genv ops).undefinedOut u
    · rw [buildAll_error l hd] at hc; cases hc
    · rw [buildAll_ok l (by simpa using hd)] at hc
      cases hc
      exact ⟨h2.filter _, fun u => by rw [List.mem_filter, h3]⟩
  have hev : Eval (fun u => Needs (final genv ops).deps 0 u ∧ (final genv ops).built u = true)
      comp init n (runAll (comps.map comp) init n) := by
    refine eval_congr hmem.2 (runAll_eval hmem.1 ?_ ?_ init n)
    · intro u v n hu hv
      exact hw.own u v n ((hmem.2 u).1 hu) ((hmem.2 v).1 hv)
    · intro u hu n hn
      rcases hw.reads u ((hmem.2 u).1 hu) n hn with h | ⟨v, hv1, hv, hm⟩
      · exact Or.inl fun v hv => h v ((hmem.2 v).1 hv)
      · exact Or.inr ⟨v, setupGroup_before h hc ((hmem.2 u).1 hu).1 hv ((hmem.2 u).1 hu).2 hv1.2, hm⟩
  exact ⟨fun hv => hv ▸ hev, fun hv => eval_unique hw.own hev hv⟩

/-- **C13.** Two set-ups of the same expressions, with any set orders, recursion limits and values of
`reverse_branch_sorting`, leave the same values in all variables. -/
theorem c13_order_irrelevant {env env' : SetupEnv} {isIndep : Ref → Bool} {root : Ref} {deps : Graph}
    (h : WellFormed env isIndep root deps) (h' : WellFormed env' isIndep root deps)
    {comp : Ref → Comp V} (hw : Wired deps (Needs deps root) comp) :
    ∃ l l', execOrder env isIndep root (GState.fresh deps) = .ok l ∧
      execOrder env' isIndep root (GState.fresh deps) = .ok l' ∧
      ∀ init, runAll (l.map comp) init = runAll (l'.map comp) init := by
  obtain ⟨l, h1, h2⟩ := c12_values h hw
  obtain ⟨l', h1', h2'⟩ := c12_values h' hw
  exact ⟨l, l', h1, h1', fun init => funext fun n => (h2 init n _).2 ((h2' init n _).1 rfl)⟩

/-- **C13** for histories of API calls. -/
theorem c13_group_order_irrelevant {genv : GEnv} {env env' : SetupEnv} {ops : List Op}
    (h : GroupOk genv env ops) (h' : GroupOk genv env' ops) {comps comps' : List Ref}
    (hc : setupGroup env (final genv ops) = .ok comps)
    (hc' : setupGroup env' (final genv ops) = .ok comps') {comp : Ref → Comp V}
    (hw : Wired (final genv ops).deps
      (fun u => Needs (final genv ops).deps 0 u ∧ (final genv ops).built u = true) comp)
    (init : Store V) : runAll (comps.map comp) init = runAll (comps'.map comp) init :=
  funext fun n => (c12_group_values h hc hw init n _).2 ((c12_group_values h' hc' hw init n _).1 rfl)

/-! ## One variable per expression -/

/-- The component of an expression: it applies `op u` to the variables of the arguments and writes the
variable of `u`; an input has no component. -/
def exprComp {α : Type} (isInput : Ref → Prop) [DecidablePred isInput] (name : Ref → String)
    (args : Ref → List Ref) (op : Ref → List α → α) (u : Ref) : Comp fun _ => α :=
  if isInput u then ⟨[], [], fun _ _ => op u []⟩
  else ⟨(args u).map name, [name u], fun x _ => op u (List.ofFn x)⟩

/-- **C12**, as stated: after one run every expression's variable holds the value of the expression,
if names are pairwise different and arguments are among the recorded dependencies. -/
theorem c12_expression_values {α : Type} {env : SetupEnv} {isIndep : Ref → Bool} {root : Ref}
    {deps : Graph} (h : WellFormed env isIndep root deps) (isInput : Ref → Prop)
    [DecidablePred isInput] (name : Ref → String) (args : Ref → List Ref) (op : Ref → List α → α)
    (hnames : ∀ u v, Needs deps root u → Needs deps root v → name u = name v → u = v)
    (hargs : ∀ u, Needs deps root u → ∀ a ∈ args u, a ∈ deps u) :
    ∃ l, execOrder env isIndep root (GState.fresh deps) = .ok l ∧
      ∀ (init : Store fun _ => α) (val : Ref → α),
        (∀ u, Needs deps root u → isInput u → init (name u) = val u) →
        ∀ u, Needs deps root u → ∀ v,
          runAll (l.map (exprComp isInput name args op)) init (name u) = v ↔
            EvalExpr isInput args op val u v := by
  have hw : Wired deps (Needs deps root) (exprComp isInput name args op) := by
    constructor
    · intro u v n hu hv hn hm
      unfold exprComp at hn hm
      split at hn <;> split at hm <;> simp at hn hm
      exact hnames u v hu hv (hn.symm.trans hm)
    · intro u hu n hn
      unfold exprComp at hn
      split at hn
      · simp at hn
      · obtain ⟨a, ha, rfl⟩ := List.mem_map.1 hn
        have hd := hargs u hu a ha
        have ha' : Needs deps root a := hu.tail hd
        by_cases hi : isInput a
        · left
          intro v hv hm
          unfold exprComp at hm
          split at hm
          · simp at hm
          · rename_i hvi
            have : a = v := hnames a v ha' hv (by simpa using hm)
            exact hvi (this ▸ hi)
        · right
          refine ⟨a, ha', Relation.TransGen.single hd, ?_⟩
          unfold exprComp
          rw [if_neg hi]; simp
  obtain ⟨l, h1, h2⟩ := c12_values h hw
  refine ⟨l, h1, fun init val hval => ?_⟩
  -- recursive evaluation of the expression gives the value of its variable
  have hfor : ∀ u v, EvalExpr isInput args op val u v → Needs deps root u →
      runAll (l.map (exprComp isInput name args op)) init (name u) = v := by
    intro u v hev
    induction hev with
    | input u hi =>
      intro hu
      refine (h2 init _ _).2 ?_
      rw [← hval u hu hi]
      refine Eval.given _ fun v hv hm => ?_
      unfold exprComp at hm
      split at hm
      · simp at hm
      · rename_i hvi
        have : u = v := hnames u v hu hv (by simpa using hm)
        exact hvi (this ▸ hi)
    | apply u hi xs hlen hx ih =>
      intro hu
      refine (h2 init _ _).2 ?_
      have hcomp : exprComp isInput name args op u =
          ⟨(args u).map name, [name u], fun x _ => op u (List.ofFn x)⟩ := by
        unfold exprComp; rw [if_neg hi]
      have key := Eval.computed (N := Needs deps root) (comp := exprComp isInput name args op)
        (init := init) u (name u) hu (by rw [hcomp]; simp)
        (fun i => runAll (l.map (exprComp isInput name args op)) init _)
        (fun i => (h2 init _ _).1 rfl)
      convert key using 1
      have aux : ∀ c : Comp fun _ => α,
          c = ⟨(args u).map name, [name u], fun x _ => op u (List.ofFn x)⟩ → ∀ s : Store fun _ => α,
          c.f (fun i => s c.reads[i]) (name u) = op u ((args u).map fun a => s (name a)) := by
        rintro c rfl s
        simp only
        congr 1
        apply List.ext_getElem
        · simp
        · intro i h1 h2
          rw [List.getElem_ofFn, List.getElem_map]
          exact congrArg (fun m => (s m : α)) (List.getElem_map name)
      refine Eq.trans ?_ (aux _ hcomp (runAll (l.map (exprComp isInput name args op)) init)).symm
      congr 1
      apply List.ext_getElem
      · simpa using hlen
      · intro i h1 h2
        have hi' : i < (args u).length := by simpa using h2
        rw [List.getElem_map]
        exact (ih i hi' h1 (hu.tail (hargs u hu _ (List.getElem_mem hi')))).symm
  -- and every needed expression can be evaluated
  have hex : ∀ u, Needs deps root u → ∃ v, EvalExpr isInput args op val u v := by
    obtain ⟨_, ⟨m, hm, _⟩, _, _⟩ := h
    have : ∀ k u, ChainsLt deps u k → Needs deps root u → ∃ v, EvalExpr isInput args op val u v := by
      intro k
      induction k with
      | zero => intro u hu; exact absurd (hu [] (List.IsChain.singleton u)) (by simp)
      | succ k ih =>
        intro u hk hu
        by_cases hi : isInput u
        · exact ⟨_, EvalExpr.input u hi⟩
        · have hall : ∀ a ∈ args u, ∃ v, EvalExpr isInput args op val a v := by
            intro a ha
            refine ih a ?_ (hu.tail (hargs u hu a ha))
            intro c hc
            have := hk (a :: c) (List.IsChain.cons_cons (hargs u hu a ha) hc)
            simpa using this
          haveI : Nonempty α := ⟨op u []⟩
          choose! g hg using hall
          refine ⟨_, EvalExpr.apply u hi ((args u).map g) (by simp) ?_⟩
          intro i h1 h2
          rw [List.getElem_map]
          exact hg _ (List.getElem_mem h1)
    intro u hu
    refine this m u ?_ hu
    intro c hc
    -- a chain from the root through `u`
    obtain ⟨p, hp⟩ : ∃ p, List.IsChain (Edge deps) (root :: (p ++ u :: c)) := by
      have : ∀ w, Needs deps root w → ∀ c, List.IsChain (Edge deps) (w :: c) →
          ∃ p, List.IsChain (Edge deps) (root :: (p ++ w :: c)) := by
        intro w hw
        induction hw with
        | single hab => intro c hc; exact ⟨[], List.IsChain.cons_cons hab hc⟩
        | tail _ hab ih =>
          intro c hc
          obtain ⟨p, hp⟩ := ih _ (List.IsChain.cons_cons hab hc)
          exact ⟨p ++ [_], by simpa using hp⟩
      exact this u hu c hc
    have := hm _ hp
    simp only [List.length_append, List.length_cons] at this
    omega
  intro u hu v
  constructor
  · intro hv
    obtain ⟨v', hv'⟩ := hex u hu
    rw [← hv, hfor u v' hv' hu]
    exact hv'
  · exact fun hv => hfor u v hv hu

/-! ## A concrete group -/

/-- In the group `demoDeps` with `4 = 3`, `5 = 2`, `3 = 4 * 5`, `2 = 3 + 4`, `1 = 2 - 3 - 3`, the output
`1` gets the value `-3`. -/
def demoOp : Ref → List Int → Int
  | 3, [a, b] => a * b
  | 2, [a, b] => a + b
  | 1, [a, b, c] => a - b - c
  | _, _ => 2

def demoArgs : Ref → List Ref := fun u => [[], [2, 3, 3], [3, 4], [4, 5], [], []].getD u []

def demoName : Ref → String := fun u => ["", "a", "b", "c", "d", "e"].getD u ""

example : ∃ l, execOrder demoEnv (· == 5) 0 (GState.fresh demoDeps) = .ok l ∧
    runAll (l.map (exprComp (· = 4) demoName demoArgs demoOp)) (fun _ => (3 : Int)) "a" = -3 := by
  have hle : ∀ v, Reach demoDeps 0 v → v < 6 := fun v hv =>
    ofAdj_reach (adj := [[5, 1, 3], [2, 3], [3, 4], [4, 5], [], []]) (by decide) (by decide) hv
  have hpos : ∀ v, Needs demoDeps 0 v → v ≠ 0 := by
    rintro v hv rfl
    exact ofAdj_acyclic (adj := [[5, 1, 3], [2, 3], [3, 4], [4, 5], [], []])
      (fun u => [6, 5, 4, 3, 1, 1].getD u 0) (by decide) 0 0 .refl hv
  obtain ⟨l, h1, h2⟩ := c12_expression_values demo_wellFormed (· = 4) demoName demoArgs demoOp
    (by
      intro u v hu hv
      have := hle u hu.to_reflTransGen
      have := hle v hv.to_reflTransGen
      have := hpos u hu
      have := hpos v hv
      interval_cases u <;> interval_cases v <;> first | contradiction | decide)
    (by
      intro u hu
      have := hle u hu.to_reflTransGen
      interval_cases u <;> decide)
  refine ⟨l, h1, (h2 _ (fun _ => 3) (fun _ _ _ => rfl) 1 (Relation.TransGen.single (show 1 ∈ demoDeps 0 by decide)) _).2 ?_⟩
  have e4 : EvalExpr (· = 4) demoArgs demoOp (fun _ => 3) 4 3 := EvalExpr.input (isInput := (· = 4)) (val := fun _ => 3) 4 rfl
  have e5 : EvalExpr (· = 4) demoArgs demoOp (fun _ => 3) 5 2 :=
    EvalExpr.apply (isInput := (· = 4)) (args := demoArgs) (op := demoOp) (val := fun _ => 3) 5 (by decide) [] rfl (by intro i h; simp [demoArgs] at h)
  have e3 : EvalExpr (· = 4) demoArgs demoOp (fun _ => 3) 3 6 :=
    EvalExpr.apply (isInput := (· = 4)) (args := demoArgs) (op := demoOp) (val := fun _ => 3) 3 (by decide) [3, 2] rfl (by
      intro i h1 h2
      have h1 : i < 2 := h1
      interval_cases i <;> assumption)
  have e2 : EvalExpr (· = 4) demoArgs demoOp (fun _ => 3) 2 9 :=
    EvalExpr.apply (isInput := (· = 4)) (args := demoArgs) (op := demoOp) (val := fun _ => 3) 2 (by decide) [6, 3] rfl (by
      intro i h1 h2
      have h1 : i < 2 := h1
      interval_cases i <;> assumption)
  exact EvalExpr.apply (isInput := (· = 4)) (args := demoArgs) (op := demoOp) (val := fun _ => 3) 1 (by decide) [9, 6, 6] rfl (by
      intro i h1 h2
      have h1 : i < 3 := h1
      interval_cases i <;> assumption)

end OM
