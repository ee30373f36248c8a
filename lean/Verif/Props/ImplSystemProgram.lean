import Verif.Props.ImplSystem

/-! # An implicit component with a subsystem (C75)

The component of `omtools/examples/ex_implicit.py` 6-23, with one coefficient from a subsystem and one from outside. -/

namespace OM
open Spec

/-- The group `sys`: an independent variable `a`. -/
def coefProg : List Stmt := [.createIndep "a" [1]]

noncomputable def coefSys (l : Layout) : System := .group progGEnv demoEnv coefProg l [1] fun _ => .comp []

/-- The input `c` (1), the group `sys` (2), the input `a` (3), the implicit output `x` (4), `x ** 2` (5), `a * x ** 2` (6),
and `a * x ** 2 - c` (7), which is the residual (the new object for `x` is 8). -/
noncomputable def quadProg : List ImplStmt :=
  [.stmt (.declareInput "c" [1]), .stmt (.addSubsystem "sys"), .stmt (.declareInput "a" [1]), .createImplicit "x" [1],
   .stmt (.expr (.pow 4 2)), .stmt (.expr (.mul (.ref 3) (.ref 5))), .stmt (.expr (.sub (.ref 6) (.ref 1))),
   .defineResidual 4 7]

def quadOps : List Op :=
  [.declareInput "c", .addSubsystem "sys", .declareInput "a", .createImplicit "x", .combine [4], .combine [3, 5],
   .combine [6, 1], .defineResidual 4 7]

noncomputable def quadExplicit : List Stmt :=
  [.declareInput "c" [1], .addSubsystem "sys", .declareInput "a" [1], .declareInput "x" [1],
   .expr (.pow 4 2), .expr (.mul (.ref 3) (.ref 5)), .expr (.sub (.ref 6) (.ref 1)),
   .declareInput "x" [1], .registerOutput "_______" 7]

def quadExplicitOps : List Op :=
  [.declareInput "c", .addSubsystem "sys", .declareInput "a", .declareInput "x", .combine [4], .combine [3, 5],
   .combine [6, 1], .declareInput "x", .registerOutput "_______" 7]

theorem quad_ops : implOps quadProg = quadOps := rfl
theorem quad_explicit : explicitOf progGEnv quadProg = quadExplicit := rfl
theorem quad_explicitOps : ops quadExplicit = quadExplicitOps := rfl
theorem quad_residuals : residualsOf progGEnv quadProg = [(7, "x")] := by decide

noncomputable def quadSub (l : Layout) (_ : Ref) : System := coefSys l

/-! ## The subsystem -/

def coefOps : List Op := [.createIndep "a"]

theorem coef_programOk {m : Meaning Unit} : ProgramOk progGEnv demoEnv m coefOps where
  group := groupOk_of_check (by decide) ⟨trivial, trivial⟩ (by decide) 8 pyOrder_ascending (by decide)
  uses := by
    intro a op b e u hu
    obtain ⟨i, hi, rfl, h1, _⟩ := split_cases e
    change i < 1 at hi
    interval_cases i
    simp [coefOps] at h1
    subst h1
    simp [Op.uses] at hu
  feedback := by
    intro a out e b h
    obtain ⟨i, hi, rfl, h1, _⟩ := split_cases h
    change i < 1 at hi
    interval_cases i <;> simp [coefOps] at h1
  own := by
    rintro u v ⟨hu, hu'⟩ ⟨hv, hv'⟩
    change u < 2 at hu
    change v < 2 at hv
    revert hu' hv'
    interval_cases u <;> interval_cases v <;> decide
  subs := by
    rintro s n ⟨a, nm, b, e, rfl⟩
    obtain ⟨i, hi, rfl, h1, _⟩ := split_cases e
    change i < 1 at hi
    interval_cases i <;> simp [coefOps] at h1
  inputs := by
    intro a nm b h
    obtain ⟨i, hi, rfl, h1, _⟩ := split_cases h
    change i < 1 at hi
    interval_cases i <;> simp [coefOps] at h1
  subReads := by
    intro a nm b h
    obtain ⟨i, hi, rfl, h1, _⟩ := split_cases h
    change i < 1 at hi
    interval_cases i <;> simp [coefOps] at h1

theorem coef_cases {a b : List Stmt} {st : Stmt} (e : coefProg = a ++ st :: b) : a = [] ∧ st = .createIndep "a" [1] := by
  obtain ⟨i, hi, rfl, h1, _⟩ := split_prog e
  change i < 1 at hi
  interval_cases i
  simp [coefProg] at h1
  exact ⟨rfl, h1.symm⟩

theorem coef_ok : ∃ l, (coefSys l).Ok fun _ => 1 := by
  obtain ⟨l, h1, h2⟩ := c69_compiles (genv := progGEnv) (env := demoEnv) (m := interface fun _ => .comp []) (prog := coefProg)
    (shape := fun u => if u = 1 then [1] else []) coef_programOk.toProgramCore rfl
    (fun a st b e => by obtain ⟨rfl, rfl⟩ := coef_cases e; trivial)
    (fun a st b e => by
      obtain ⟨rfl, rfl⟩ := coef_cases e
      show (if _ then _ else _) = _
      decide)
  refine ⟨l, ⟨Compiled.part ⟨.of coef_programOk.toProgramCore h1 (by decide) (fun u hu => ?_) ?_ ?_ ?_ ?_, coef_programOk⟩, ?_⟩⟩
  · rw [h2 u hu]
    obtain ⟨a, op, b, e, h⟩ := hu
    obtain ⟨i, hi, rfl, h1, _⟩ := split_cases (ops := coefOps) e
    change i < 1 at hi
    interval_cases i
    simp [coefOps] at h1
    subst h1
    rw [show u = 1 from h]
    decide
  · intro a out e b he
    obtain ⟨i, hi, rfl, h1, _⟩ := split_cases (ops := coefOps) he
    change i < 1 at hi
    interval_cases i <;> simp [coefOps] at h1
  · intro a x key b e
    cases (coef_cases e).2
  · intro a x key u b e
    cases (coef_cases e).2
  · intro a c b e
    cases (coef_cases e).2
  · intro s hs hk
    simp only [List.mem_cons, List.not_mem_nil, or_false] at hs
    subst hs
    exact absurd hk (by decide)

theorem coef_writes (l : Layout) : (coefSys l).writes = ["a"] := by
  unfold coefSys System.writes
  simp only [List.flatMap_cons, List.flatMap_nil, List.append_nil]
  rw [show (worldOf progGEnv coefProg).kind 1 = .indep by decide]
  simp only
  rw [show (worldOf progGEnv coefProg).name 1 = "a" by decide]

theorem coef_flat (l : Layout) : (coefSys l).flat = [[]] := by
  unfold coefSys System.flat
  simp only [List.flatMap_cons, List.flatMap_nil, List.append_nil]
  rw [if_neg (by decide)]
  unfold Layout.outsOf
  rw [show (worldOf progGEnv coefProg).kind 1 = .indep by decide]

theorem coef_reads (l : Layout) : (coefSys l).reads = [] := by
  unfold System.reads
  rw [coef_flat]
  rfl

/-! ## The component -/

theorem quad_added {s : Ref} (h : AddedIn progGEnv quadExplicitOps s) : s = 2 := by
  obtain ⟨a, nm, b, e, rfl⟩ := h
  obtain ⟨i, hi, rfl, h1, _⟩ := split_cases e
  change i < 9 at hi
  interval_cases i <;> first | (simp [quadExplicitOps] at h1; done) | decide

theorem quad_group : GroupOk progGEnv demoEnv quadOps :=
  groupOk_of_check (by decide) ⟨trivial, trivial, trivial, trivial, trivial, trivial, trivial, trivial, trivial⟩ (by decide) 8
    pyOrder_ascending (by decide)

theorem quad_returned {u : Ref} (h : Returned progGEnv quadExplicitOps u) : u = 1 ∨ (3 ≤ u ∧ u ≤ 8) := by
  obtain ⟨a, op, b, e, h⟩ := h
  obtain ⟨i, hi, rfl, h1, _⟩ := split_cases e
  change i < 9 at hi
  interval_cases i <;> simp [quadExplicitOps] at h1 <;> subst h1
  · rw [show u = 1 from h]; decide
  · exact h.elim
  · rw [show u = 3 from h]; decide
  · rw [show u = 4 from h]; decide
  · rw [show u = 5 from h]; decide
  · rw [show u = 6 from h]; decide
  · rw [show u = 7 from h]; decide
  · rw [show u = 8 from h]; decide
  · exact h.elim

theorem quad_var {u : Ref} (h : HasVar (final progGEnv quadExplicitOps) u) :
    (final progGEnv quadExplicitOps).name u ∉ ["a", "c", "x"] := by
  obtain ⟨hu, hk⟩ := h
  change u < 9 at hu
  revert hk
  interval_cases u <;> decide

theorem quad_programOk (l : Layout) : ProgramOk progGEnv demoEnv (interface (quadSub l)) quadExplicitOps where
  group := groupOk_of_check (by decide)
    ⟨trivial, trivial, trivial, trivial, trivial, trivial, trivial, trivial, trivial, trivial⟩ (by decide) 8
    pyOrder_ascending (by decide)
  uses := by
    intro a op b e u hu
    obtain ⟨i, hi, rfl, h1, _⟩ := split_cases e
    change i < 9 at hi
    have r1 : ∀ k, Returned progGEnv (quadExplicitOps.take (k + 1)) 1 := fun k =>
      ⟨[], .declareInput "c", _, rfl, by show _ = _; decide⟩
    have r3 : ∀ k, Returned progGEnv (quadExplicitOps.take (k + 3)) 3 := fun k =>
      ⟨quadExplicitOps.take 2, .declareInput "a", _, rfl, by show _ = _; decide⟩
    have r4 : ∀ k, Returned progGEnv (quadExplicitOps.take (k + 4)) 4 := fun k =>
      ⟨quadExplicitOps.take 3, .declareInput "x", _, rfl, by show _ = _; decide⟩
    have r5 : ∀ k, Returned progGEnv (quadExplicitOps.take (k + 5)) 5 := fun k =>
      ⟨quadExplicitOps.take 4, .combine [4], _, rfl, by show _ = _; decide⟩
    have r6 : ∀ k, Returned progGEnv (quadExplicitOps.take (k + 6)) 6 := fun k =>
      ⟨quadExplicitOps.take 5, .combine [3, 5], _, rfl, by show _ = _; decide⟩
    have r7 : ∀ k, Returned progGEnv (quadExplicitOps.take (k + 7)) 7 := fun k =>
      ⟨quadExplicitOps.take 6, .combine [6, 1], _, rfl, by show _ = _; decide⟩
    interval_cases i <;> simp [quadExplicitOps] at h1 <;> subst h1 <;> simp [Op.uses] at hu
    · subst hu; exact r4 0
    · rcases hu with rfl | rfl
      · exact r3 2
      · exact r5 0
    · rcases hu with rfl | rfl
      · exact r6 0
      · exact r1 5
    · subst hu; exact r7 1
  feedback := by
    intro a out e b h
    obtain ⟨i, hi, rfl, h1, _⟩ := split_cases h
    change i < 9 at hi
    interval_cases i <;> simp [quadExplicitOps] at h1
  own := by
    rintro u v ⟨hu, hu'⟩ ⟨hv, hv'⟩
    change u < 9 at hu
    change v < 9 at hv
    revert hu' hv'
    interval_cases u <;> interval_cases v <;> decide
  subs := by
    intro s n hs hn
    obtain rfl := quad_added hs
    have hn' : n ∈ (coefSys l).writes := hn
    rw [coef_writes, List.mem_singleton] at hn'
    subst hn'
    exact ⟨fun u hu e => quad_var hu (by rw [e]; decide), fun s' hs' _ => (quad_added hs').symm⟩
  inputs := by
    intro a nm b h
    obtain ⟨i, hi, rfl, h1, _⟩ := split_cases h
    change i < 9 at hi
    have key : ∀ s n, AddedIn progGEnv quadExplicitOps s → n ∈ (interface (quadSub l)).subWrites s → n = "a" ∧ s = 2 := by
      intro s n hs hn
      have hn' : n ∈ (coefSys l).writes := hn
      rw [coef_writes, List.mem_singleton] at hn'
      exact ⟨hn', quad_added hs⟩
    interval_cases i <;> simp [quadExplicitOps] at h1 <;> subst h1 <;>
      refine ⟨fun u hu e => quad_var hu (by rw [e]; decide), fun s hs hn => ?_⟩
    · exact absurd (key s _ hs hn).1 (by decide)
    · obtain rfl := (key s _ hs hn).2
      exact ⟨[.declareInput "c"], "sys", [], rfl, by decide⟩
    · exact absurd (key s _ hs hn).1 (by decide)
    · exact absurd (key s _ hs hn).1 (by decide)
  subReads := by
    intro a nm b h n hn
    have hn' : n ∈ (coefSys l).reads := hn
    rw [coef_reads] at hn'
    cases hn'

def quadShape (u : Ref) : List Nat := if u = 0 ∨ u = 2 then [] else [1]

def quadIface : ImplInterface := ⟨["x"], ["c"], [("x", "c"), ("x", "x")]⟩

theorem quad_fine : FineFrom progGEnv (World.init progGEnv) quadProg :=
  ⟨trivial, trivial, trivial, trivial, trivial, trivial, trivial, ⟨by decide, by decide⟩, trivial⟩

theorem quad_noItem {a b : List Stmt} {st : Stmt} (e : quadExplicit = a ++ st :: b) :
    (∀ x key, st ≠ .getItem x key) ∧ ∀ out key e, st ≠ .setItem out key e := by
  obtain ⟨i, hi, rfl, h1, _⟩ := split_prog e
  change i < 9 at hi
  interval_cases i <;> simp [quadExplicit] at h1 <;> subst h1 <;> simp

theorem quad_compiled (k : Layout) : ∃ l,
    ImplCompiled progGEnv demoEnv (interface (quadSub k)) quadProg l [2, 5, 6, 7] quadIface (fun _ => 1) ∧
    ∀ u, Returned progGEnv quadExplicitOps u → l.shape u = [1] := by
  obtain ⟨l, h1, h2⟩ := c69_compiles (genv := progGEnv) (env := demoEnv) (m := interface (quadSub k)) (prog := quadExplicit)
    (shape := quadShape) (quad_programOk k).toProgramCore rfl (by
      intro a st b e
      obtain ⟨i, hi, rfl, h1, _⟩ := split_prog e
      change i < 9 at hi
      interval_cases i <;> simp [quadExplicit] at h1 <;> subst h1 <;> trivial) (by
      intro a st b e
      obtain ⟨i, hi, rfl, h1, _⟩ := split_prog e
      change i < 9 at hi
      interval_cases i <;> simp [quadExplicit] at h1 <;> subst h1
      · show quadShape _ = _; decide
      · trivial
      · show quadShape _ = _; decide
      · show quadShape _ = _; decide
      · exact ⟨trivial, by decide⟩
      · exact ⟨⟨by decide, by decide⟩, by decide⟩
      · exact ⟨⟨by decide, by decide⟩, by decide⟩
      · show quadShape _ = _; decide
      · trivial)
  have h2' : ∀ u, Returned progGEnv quadExplicitOps u → l.shape u = [1] := by
    intro u hu
    rw [h2 u hu]
    rcases quad_returned hu with rfl | ⟨h3, h4⟩
    · decide
    · interval_cases u <;> decide
  refine ⟨l, ⟨quad_group, quad_fine, ?_, by decide, by decide, quad_programOk k, fun u hu => ?_, ?_,
    fun a x key b e => absurd rfl ((quad_noItem e).1 x key),
    fun a out key e b he => absurd rfl ((quad_noItem he).2 out key e), fun a c b e => ?_, ?_, ?_⟩, h2'⟩
  · exact (impl_sims (m := interface (quadSub k)) quad_group quad_fine (quad_programOk k)).2.2.symm.trans h1
  · rw [h2' u hu]; rfl
  · intro a out e b he
    obtain ⟨i, hi, rfl, h1, _⟩ := split_cases (ops := quadExplicitOps) he
    change i < 9 at hi
    interval_cases i <;> simp [quadExplicitOps] at h1
  · obtain ⟨i, hi, rfl, he, _⟩ := split_prog (prog := quadExplicit) e
    change i < 9 at hi
    interval_cases i <;> simp [quadExplicit] at he <;> subst he <;> trivial
  · intro r hr d hd hk
    rw [quad_residuals] at hr
    change d < 9 at hd
    obtain rfl := List.mem_singleton.1 hr
    revert hk
    interval_cases d <;> decide
  · intro o ho s hs hn
    have hn' : (final progGEnv (implOps quadProg)).name o ∈ (coefSys k).writes := hn
    rw [coef_writes, List.mem_singleton] at hn'
    obtain ⟨⟨P, hs'⟩, -, -⟩ := impl_sims (m := interface (quadSub k)) quad_group quad_fine (quad_programOk k)
    have hlt : o < 9 := (hs'.leaf o (hs'.implicit o ho)).2
    revert hn'
    revert ho
    interval_cases o <;> decide

theorem quad_subOk {k : Layout} (hk : (coefSys k).Ok fun _ => 1) : ∀ s ∈ [2, 5, 6, 7],
    (implWorld progGEnv quadProg).kind s = .subsystem → (quadSub k s).Ok fun _ => 1 := fun _ _ _ => hk

/-- Powers with the exponent 2, products and differences are defined everywhere. -/
theorem quad_defined (l k : Layout) (arr : String → Nat → ℝ) :
    (implSys progGEnv demoEnv quadProg l [2, 5, 6, 7] (quadSub k)).Defined arr := by
  refine ⟨fun a c b e _ => ?_, fun s hs hk => ?_⟩
  · obtain ⟨i, hi, rfl, he, _⟩ := split_prog (prog := quadExplicit) e
    change i < 9 at hi
    interval_cases i <;> simp [quadExplicit] at he <;> subst he
    · intro idx _
      exact Or.inr ⟨⟨2, by norm_num⟩, Or.inr (by norm_num)⟩
    · exact ⟨by simp, by simp⟩
    · trivial
  · refine ⟨fun a c b e _ => ?_, fun s hs hk => ?_⟩
    · cases (coef_cases e).2
    · simp only [List.mem_cons, List.not_mem_nil, or_false] at hs
      subst hs
      exact absurd hk (by decide)

/-- No component computes the independent variable. -/
theorem quad_given {l k : Layout} (hk : (coefSys k).Ok fun _ => 1)
    (h : ImplCompiled progGEnv demoEnv (interface (quadSub k)) quadProg l [2, 5, 6, 7] quadIface fun _ => 1) :
    ∀ c ∈ implFlat progGEnv quadProg l [2, 5, 6, 7] (quadSub k), "a" ∉ wr c := by
  rw [h.flat_eq]
  intro c hc hw
  obtain ⟨u, hu, hcu⟩ := List.mem_flatMap.1 hc
  have hok := (h.sysOk (quad_subOk hk)).1
  split at hcu
  · rw [show (quadSub k u).flat = [[]] from coef_flat k, List.mem_singleton] at hcu
    subst hcu
    cases hw
  · rename_i hks
    obtain rfl := List.mem_singleton.1 hcu
    rcases mem_writes hok.ok.group.valid (comps_lt hok.ok hok.arranged hu)
      ((compiled_realises hok.toCompiledOn u).2 hw) with ⟨o, o1, -, o3⟩ | ⟨o1, -⟩
    · exact quad_var o1 (by rw [show (final progGEnv quadExplicitOps).name o = _ from o3]; decide)
    · have := addedIn_kind (b := []) (by rw [List.append_nil]; exact hok.ok.group.valid) o1
      rw [List.append_nil] at this
      exact absurd this hks

/-- What the component computes: `a * x ** 2 - c`, with the `a` of the subsystem, whatever happened before. -/
theorem quad_residual {l k : Layout} (hk : (coefSys k).Ok fun _ => 1)
    (h : ImplCompiled progGEnv demoEnv (interface (quadSub k)) quadProg l [2, 5, 6, 7] quadIface fun _ => 1)
    (hl : ∀ u, Returned progGEnv quadExplicitOps u → l.shape u = [1]) (s : Store (FlatArr fun _ => 1))
    {cs : List (ImplCall (FlatArr fun _ => 1))} (hcs : ∀ c ∈ cs, c.Of ["x"]) (x : Store (FlatArr fun _ => 1)) :
    let p := implSysProb progGEnv quadProg l [2, 5, 6, 7] (quadSub k) quadIface fun _ => 1
    p.after (p.history s cs) (.residuals x) "_______" 0 = s "a" 0 * x "x" 0 ^ 2 - x "c" 0 := by
  intro p
  obtain ⟨-, h1, h3, ⟨h2, -⟩, -⟩ := c75_system_residuals h (quad_subOk hk) s hcs x (quad_defined l k _)
  set S := p.after (p.history s cs) (.residuals x) with hS
  rw [named_held] at h2
  have r1 : Returned progGEnv quadExplicitOps 1 := ⟨[], .declareInput "c", _, rfl, by show _ = _; decide⟩
  have r3 : Returned progGEnv quadExplicitOps 3 := ⟨quadExplicitOps.take 2, .declareInput "a", _, rfl, by show _ = _; decide⟩
  have r4 : Returned progGEnv quadExplicitOps 4 := ⟨quadExplicitOps.take 3, .declareInput "x", _, rfl, by show _ = _; decide⟩
  have r5 : Returned progGEnv quadExplicitOps 5 := ⟨quadExplicitOps.take 4, .combine [4], _, rfl, by show _ = _; decide⟩
  have r6 : Returned progGEnv quadExplicitOps 6 := ⟨quadExplicitOps.take 5, .combine [3, 5], _, rfl, by show _ = _; decide⟩
  have r7 : Returned progGEnv quadExplicitOps 7 := ⟨quadExplicitOps.take 6, .combine [6, 1], _, rfl, by show _ = _; decide⟩
  have hheld : ∀ u n, l.shape u = [1] → (final progGEnv (ops quadExplicit)).name u = n →
      held l (final progGEnv (ops quadExplicit)) S u 0 = S n 0 := by
    rintro u _ hu rfl
    unfold held
    rw [dif_pos ⟨by simp, by rw [hu]; simp [prodShape]⟩]
    rfl
  have v1 := hheld 1 "c" (hl 1 r1) (by decide)
  have v3 := hheld 3 "a" (hl 3 r3) (by decide)
  have v4 := hheld 4 "x" (hl 4 r4) (by decide)
  have v5 := hheld 5 "_____" (hl 5 r5) (by decide)
  have v6 := hheld 6 "______" (hl 6 r6) (by decide)
  have v7 := hheld 7 "_______" (hl 7 r7) (by decide)
  have hin : InBounds [1] [0] := by simp [InBounds]
  have e5 := (h2.expr (quadExplicit.take 4) (.pow 4 2) _ rfl (by decide)).2 [0]
    (by simpa [Term.outShape, hl 4 r4] using hin)
  have e6 := (h2.expr (quadExplicit.take 5) (.mul (.ref 3) (.ref 5)) _ rfl (by decide)).2 [0]
    (by simpa [Term.outShape, Arg.shape2, hl 3 r3] using hin)
  have e7 := (h2.expr (quadExplicit.take 6) (.sub (.ref 6) (.ref 1)) _ rfl (by decide)).2 [0]
    (by simpa [Term.outShape, Arg.shape2, hl 6 r6] using hin)
  rw [show (final progGEnv (ops (quadExplicit.take 4))).next = 5 by decide] at e5
  rw [show (final progGEnv (ops (quadExplicit.take 5))).next = 6 by decide] at e6
  rw [show (final progGEnv (ops (quadExplicit.take 6))).next = 7 by decide] at e7
  simp only [Term.outShape, Term.entry, Arg.shape2, Arg.entry, entryAt, hl 1 r1, hl 3 r3, hl 4 r4, hl 5 r5, hl 6 r6, ravel]
    at e5 e6 e7
  have hw : worldOf progGEnv (explicitOf progGEnv quadProg) = final progGEnv (ops quadExplicit) := rfl
  simp [hw, v1, v3, v4, v5, v6, v7] at e5 e6 e7
  rw [e7, e6, e5, h1 "x" (by decide), h1 "c" (by decide), h3 "a" (by decide) (quad_given hk h)]

/-- The component exists. It has the output `x` and the input `c`; `a` is not an input of it. -/
example (s x : Store (FlatArr fun _ => 1)) : ∃ l k, (coefSys k).Ok (fun _ => 1) ∧
    ImplCompiled progGEnv demoEnv (interface (quadSub k)) quadProg l [2, 5, 6, 7] quadIface (fun _ => 1) ∧
    ∀ cs : List (ImplCall (FlatArr fun _ => 1)), (∀ c ∈ cs, c.Of ["x"]) →
      let p := implSysProb progGEnv quadProg l [2, 5, 6, 7] (quadSub k) quadIface fun _ => 1
      p.after (p.history s cs) (.residuals x) "_______" 0 = s "a" 0 * x "x" 0 ^ 2 - x "c" 0 := by
  obtain ⟨k, hk⟩ := coef_ok
  obtain ⟨l, h, hl⟩ := quad_compiled k
  exact ⟨l, k, hk, h, fun cs hcs => quad_residual hk h hl s hcs x⟩

/-- The Jacobian that it reports is `2 * a * x` by `x` and `-1` by `c`. -/
example (s : Store (FlatArr fun _ => 1)) (x₀ c₀ : ℝ) : ∃ l k, (coefSys k).Ok (fun _ => 1) ∧
    ImplCompiled progGEnv demoEnv (interface (quadSub k)) quadProg l [2, 5, 6, 7] quadIface (fun _ => 1) ∧
    let p := implSysProb progGEnv quadProg l [2, 5, 6, 7] (quadSub k) quadIface fun _ => 1
    let x : ℝ × ℝ → Store (FlatArr fun _ => 1) := fun q n _ => if n = "x" then q.1 else if n = "c" then q.2 else 0
    ∃ d : String → ℝ × ℝ →L[ℝ] (Fin 1 → ℝ),
      TotalSystem (· ∈ p.order) p.comp (flatPartials (fun _ => 1) (implFlat progGEnv quadProg l [2, 5, 6, 7] (quadSub k)))
        (p.history s [.residuals (x (x₀, c₀)), .linearize (x (x₀, c₀))])
        (fun n => if n = "x" then ContinuousLinearMap.pi fun _ => ContinuousLinearMap.fst ℝ ℝ ℝ
          else if n = "c" then ContinuousLinearMap.pi fun _ => ContinuousLinearMap.snd ℝ ℝ ℝ else 0) d ∧
      ∀ v, d "_______" v 0 = 2 * s "a" 0 * x₀ * v.1 - v.2 := by
  obtain ⟨k, hk⟩ := coef_ok
  obtain ⟨l, h, hl⟩ := quad_compiled k
  refine ⟨l, k, hk, h, ?_⟩
  intro p x
  obtain ⟨d, h1, h2⟩ := c75_system_jacobian_partial h (quad_subOk hk) s (cs := []) (by simp) x (x₀, c₀)
    (fun n => if n = "x" then ContinuousLinearMap.pi fun _ => ContinuousLinearMap.fst ℝ ℝ ℝ
      else if n = "c" then ContinuousLinearMap.pi fun _ => ContinuousLinearMap.snd ℝ ℝ ℝ else 0)
    (by
      intro n hn
      have hn' : n = "x" ∨ n = "c" := by simpa [quadIface] using hn
      rcases hn' with rfl | rfl
      · exact (hasFDerivAt_pi (𝕜 := ℝ) (φ := fun (_ : Fin 1) (q : ℝ × ℝ) => q.1)
          (φ' := fun _ => ContinuousLinearMap.fst ℝ ℝ ℝ)).2 fun _ => hasFDerivAt_fst
      · exact (hasFDerivAt_pi (𝕜 := ℝ) (φ := fun (_ : Fin 1) (q : ℝ × ℝ) => q.2)
          (φ' := fun _ => ContinuousLinearMap.snd ℝ ℝ ℝ)).2 fun _ => hasFDerivAt_snd)
    (by
      intro n hn
      have hn' : n ≠ "x" ∧ n ≠ "c" := by simpa [quadIface] using hn
      simp [hn'])
    (quad_defined l k _)
  refine ⟨d, (h1 d).2 rfl, fun v => ?_⟩
  have h3 := hasFDerivAt_pi'.1 (h2 [] (by simp) "_______") 0
  have h4 : (fun q => p.after (p.history s []) (.residuals (x q)) "_______" 0) =
      fun q : ℝ × ℝ => s "a" 0 * q.1 ^ 2 - q.2 := by
    funext q
    rw [quad_residual hk h hl s (by simp) (x q)]
    simp [x]
  have h5 : HasFDerivAt (fun q : ℝ × ℝ => s "a" 0 * q.1 ^ 2 - q.2)
      ((s "a" 0) • ((2 * x₀) • ContinuousLinearMap.fst ℝ ℝ ℝ) - ContinuousLinearMap.snd ℝ ℝ ℝ) (x₀, c₀) := by
    have := (((hasFDerivAt_fst (𝕜 := ℝ) (p := (x₀, c₀))).pow 2).const_mul (s "a" 0)).sub
      (hasFDerivAt_snd (𝕜 := ℝ) (p := (x₀, c₀)))
    simp only [Nat.cast_ofNat, Nat.add_one_sub_one, pow_one] at this
    refine HasFDerivAt.congr_fderiv this ?_
    ext <;> simp
  have h6 := h3.unique (h4 ▸ h5)
  have := congrArg (fun L : ℝ × ℝ →L[ℝ] ℝ => L v) h6
  simp at this
  refine Eq.trans this ?_
  ring

end OM
