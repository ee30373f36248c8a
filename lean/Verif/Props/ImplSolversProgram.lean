import Verif.Props.ImplSolvers
import Verif.Props.SolversProgram

/-! # An implicit component with feedback inside (C75)

The subsystem is the group in which `y` is defined as `x + 0.5 * y`. -/

namespace OM
open Spec

/-- The input `c` (1), the group (2), the input `y` (3), the implicit output `w` (4), `y - w` (5), and `y - w - c` (6), which
is the residual (the new object for `w` is 7). -/
noncomputable def diffProg : List ImplStmt :=
  [.stmt (.declareInput "c" [1]), .stmt (.addSubsystem "loop"), .stmt (.declareInput "y" [1]), .createImplicit "w" [1],
   .stmt (.expr (.sub (.ref 3) (.ref 4))), .stmt (.expr (.sub (.ref 5) (.ref 1))), .defineResidual 4 6]

def diffOps : List Op :=
  [.declareInput "c", .addSubsystem "loop", .declareInput "y", .createImplicit "w", .combine [3, 4], .combine [5, 1],
   .defineResidual 4 6]

noncomputable def diffExplicit : List Stmt :=
  [.declareInput "c" [1], .addSubsystem "loop", .declareInput "y" [1], .declareInput "w" [1],
   .expr (.sub (.ref 3) (.ref 4)), .expr (.sub (.ref 5) (.ref 1)), .declareInput "w" [1], .registerOutput "______" 6]

def diffExplicitOps : List Op :=
  [.declareInput "c", .addSubsystem "loop", .declareInput "y", .declareInput "w", .combine [3, 4], .combine [5, 1],
   .declareInput "w", .registerOutput "______" 6]

theorem diff_explicit : explicitOf progGEnv diffProg = diffExplicit := rfl
theorem diff_explicitOps : ops diffExplicit = diffExplicitOps := rfl
theorem diff_residuals : residualsOf progGEnv diffProg = [(6, "w")] := by decide

noncomputable def diffSub (l : Layout) (_ : Ref) : System := fbSys l

theorem diff_added {s : Ref} (h : AddedIn progGEnv diffExplicitOps s) : s = 2 := by
  obtain ⟨a, nm, b, e, rfl⟩ := h
  obtain ⟨i, hi, rfl, h1, _⟩ := split_cases e
  change i < 8 at hi
  interval_cases i <;> first | (simp [diffExplicitOps] at h1; done) | decide

theorem diff_group : GroupOk progGEnv demoEnv diffOps :=
  groupOk_of_check (by decide) ⟨trivial, trivial, trivial, trivial, trivial, trivial, trivial, trivial⟩ (by decide) 8
    pyOrder_ascending (by decide)

theorem diff_returned {u : Ref} (h : Returned progGEnv diffExplicitOps u) : u = 1 ∨ (3 ≤ u ∧ u ≤ 7) := by
  obtain ⟨a, op, b, e, h⟩ := h
  obtain ⟨i, hi, rfl, h1, _⟩ := split_cases e
  change i < 8 at hi
  interval_cases i <;> simp [diffExplicitOps] at h1 <;> subst h1
  · rw [show u = 1 from h]; decide
  · exact h.elim
  · rw [show u = 3 from h]; decide
  · rw [show u = 4 from h]; decide
  · rw [show u = 5 from h]; decide
  · rw [show u = 6 from h]; decide
  · rw [show u = 7 from h]; decide
  · exact h.elim

theorem diff_var {u : Ref} (h : HasVar (final progGEnv diffExplicitOps) u) :
    (final progGEnv diffExplicitOps).name u ∉ ["x", "y", "___", "____", "c", "w"] := by
  obtain ⟨hu, hk⟩ := h
  change u < 8 at hu
  revert hk
  interval_cases u <;> decide

theorem diff_programOk {l : Layout} (h : (fbSys l).OkOn fun _ => 1) :
    ProgramOk progGEnv demoEnv (interface (diffSub l)) diffExplicitOps where
  group := groupOk_of_check (by decide)
    ⟨trivial, trivial, trivial, trivial, trivial, trivial, trivial, trivial, trivial⟩ (by decide) 8
    pyOrder_ascending (by decide)
  uses := by
    intro a op b e u hu
    obtain ⟨i, hi, rfl, h1, _⟩ := split_cases e
    change i < 8 at hi
    have r1 : ∀ k, Returned progGEnv (diffExplicitOps.take (k + 1)) 1 := fun k =>
      ⟨[], .declareInput "c", _, rfl, by show _ = _; decide⟩
    have r3 : ∀ k, Returned progGEnv (diffExplicitOps.take (k + 3)) 3 := fun k =>
      ⟨diffExplicitOps.take 2, .declareInput "y", _, rfl, by show _ = _; decide⟩
    have r4 : ∀ k, Returned progGEnv (diffExplicitOps.take (k + 4)) 4 := fun k =>
      ⟨diffExplicitOps.take 3, .declareInput "w", _, rfl, by show _ = _; decide⟩
    have r5 : ∀ k, Returned progGEnv (diffExplicitOps.take (k + 5)) 5 := fun k =>
      ⟨diffExplicitOps.take 4, .combine [3, 4], _, rfl, by show _ = _; decide⟩
    have r6 : ∀ k, Returned progGEnv (diffExplicitOps.take (k + 6)) 6 := fun k =>
      ⟨diffExplicitOps.take 5, .combine [5, 1], _, rfl, by show _ = _; decide⟩
    interval_cases i <;> simp [diffExplicitOps] at h1 <;> subst h1 <;> simp [Op.uses] at hu
    · rcases hu with rfl | rfl
      · exact r3 1
      · exact r4 0
    · rcases hu with rfl | rfl
      · exact r5 0
      · exact r1 4
    · subst hu; exact r6 1
  feedback := by
    intro a out e b h
    obtain ⟨i, hi, rfl, h1, _⟩ := split_cases h
    change i < 8 at hi
    interval_cases i <;> simp [diffExplicitOps] at h1
  own := by
    rintro u v ⟨hu, hu'⟩ ⟨hv, hv'⟩
    change u < 8 at hu
    change v < 8 at hv
    revert hu' hv'
    interval_cases u <;> interval_cases v <;> decide
  subs := by
    intro s n hs hn
    obtain rfl := diff_added hs
    refine ⟨fun u hu e => diff_var hu ?_, fun s' hs' _ => (diff_added hs').symm⟩
    rw [e]
    rcases fbSys_names h hn with rfl | rfl | rfl | rfl <;> decide
  inputs := by
    intro a nm b he
    obtain ⟨i, hi, rfl, h1, _⟩ := split_cases he
    change i < 8 at hi
    have key : ∀ s n, AddedIn progGEnv diffExplicitOps s → n ∈ (interface (diffSub l)).subWrites s →
        (n = "x" ∨ n = "y" ∨ n = "___" ∨ n = "____") ∧ s = 2 := by
      intro s n hs hn
      exact ⟨fbSys_names h hn, diff_added hs⟩
    interval_cases i <;> simp [diffExplicitOps] at h1 <;> subst h1 <;>
      refine ⟨fun u hu e => diff_var hu (by rw [e]; decide), fun s hs hn => ?_⟩
    · exact absurd (key s _ hs hn).1 (by decide)
    · obtain rfl := (key s _ hs hn).2
      exact ⟨[.declareInput "c"], "loop", [], rfl, by decide⟩
    · exact absurd (key s _ hs hn).1 (by decide)
    · exact absurd (key s _ hs hn).1 (by decide)
  subReads := by
    intro a nm b e n hn
    exact absurd hn (fbSys_noReads h n)

def diffShape (u : Ref) : List Nat := if u = 0 ∨ u = 2 then [] else [1]

def diffIface : ImplInterface := ⟨["w"], ["c"], [("w", "c"), ("w", "w")]⟩

theorem diff_fine : FineFrom progGEnv (World.init progGEnv) diffProg :=
  ⟨trivial, trivial, trivial, trivial, trivial, trivial, ⟨by decide, by decide⟩, trivial⟩

theorem diff_noItem {a b : List Stmt} {st : Stmt} (e : diffExplicit = a ++ st :: b) :
    (∀ x key, st ≠ .getItem x key) ∧ ∀ out key e, st ≠ .setItem out key e := by
  obtain ⟨i, hi, rfl, h1, _⟩ := split_prog e
  change i < 8 at hi
  interval_cases i <;> simp [diffExplicit] at h1 <;> subst h1 <;> simp

theorem diff_compiled {k : Layout} (hk : (fbSys k).OkOn fun _ => 1) : ∃ l,
    ImplCompiled progGEnv demoEnv (interface (diffSub k)) diffProg l [2, 5, 6] diffIface (fun _ => 1) ∧
    ∀ u, Returned progGEnv diffExplicitOps u → l.shape u = [1] := by
  have hP := diff_programOk hk
  obtain ⟨l, h1, h2⟩ := c69_compiles (genv := progGEnv) (env := demoEnv) (m := interface (diffSub k)) (prog := diffExplicit)
    (shape := diffShape) hP.toProgramCore rfl (by
      intro a st b e
      obtain ⟨i, hi, rfl, h1, _⟩ := split_prog e
      change i < 8 at hi
      interval_cases i <;> simp [diffExplicit] at h1 <;> subst h1 <;> trivial) (by
      intro a st b e
      obtain ⟨i, hi, rfl, h1, _⟩ := split_prog e
      change i < 8 at hi
      interval_cases i <;> simp [diffExplicit] at h1 <;> subst h1
      · show diffShape _ = _; decide
      · trivial
      · show diffShape _ = _; decide
      · show diffShape _ = _; decide
      · exact ⟨⟨by decide, by decide⟩, by decide⟩
      · exact ⟨⟨by decide, by decide⟩, by decide⟩
      · show diffShape _ = _; decide
      · trivial)
  have h2' : ∀ u, Returned progGEnv diffExplicitOps u → l.shape u = [1] := by
    intro u hu
    rw [h2 u hu]
    rcases diff_returned hu with rfl | ⟨h3, h4⟩
    · decide
    · interval_cases u <;> decide
  refine ⟨l, ⟨diff_group, diff_fine, ?_, by decide, by decide, hP, fun u hu => ?_, ?_,
    fun a x key b e => absurd rfl ((diff_noItem e).1 x key),
    fun a out key e b he => absurd rfl ((diff_noItem he).2 out key e), fun a c b e => ?_, ?_, ?_⟩, h2'⟩
  · exact (impl_sims (m := interface (diffSub k)) diff_group diff_fine hP).2.2.symm.trans h1
  · rw [h2' u hu]; rfl
  · intro a out e b he
    obtain ⟨i, hi, rfl, h1, _⟩ := split_cases (ops := diffExplicitOps) he
    change i < 8 at hi
    interval_cases i <;> simp [diffExplicitOps] at h1
  · obtain ⟨i, hi, rfl, he, _⟩ := split_prog (prog := diffExplicit) e
    change i < 8 at hi
    interval_cases i <;> simp [diffExplicit] at he <;> subst he <;> trivial
  · intro r hr d hd hk
    rw [diff_residuals] at hr
    change d < 8 at hd
    obtain rfl := List.mem_singleton.1 hr
    revert hk
    interval_cases d <;> decide
  · intro o ho s hs hn
    have hn' := fbSys_names hk hn
    obtain ⟨⟨P, hs'⟩, -, -⟩ := impl_sims (m := interface (diffSub k)) diff_group diff_fine hP
    have hlt : o < 8 := (hs'.leaf o (hs'.implicit o ho)).2
    revert hn'
    revert ho
    interval_cases o <;> decide

theorem diff_defined (l k : Layout) (arr : String → Nat → ℝ) :
    (implSys progGEnv demoEnv diffProg l [2, 5, 6] (diffSub k)).Defined arr := by
  refine ⟨fun a c b e _ => ?_, fun s hs hk => ⟨fb_defined _, fun s hs hk => ?_⟩⟩
  · obtain ⟨i, hi, rfl, he, _⟩ := split_prog (prog := diffExplicit) e
    change i < 8 at hi
    interval_cases i <;> simp [diffExplicit] at he <;> subst he
    · trivial
    · trivial
  · exfalso
    revert hk
    simp only [List.mem_cons, List.not_mem_nil, or_false] at hs
    rcases hs with rfl | rfl | rfl | rfl <;> decide

/-- The internal problem is run once, the group inside is iterated. -/
def diffOnce (s : System) : Prop := ∃ l k, s = implSys progGEnv demoEnv diffProg l [2, 5, 6] (diffSub k)

theorem diff_sequential (k : Layout) : (fbSys k).Sequential diffOnce fun _ => 1 := by
  refine ⟨fun ⟨l', k', e⟩ => ?_, fun s hs hk => ?_⟩
  · have h1 : fbProg = diffExplicit := by
      unfold implSys at e
      injection e
    have := congrArg List.length h1
    simp [fbProg, diffExplicit] at this
  · exfalso
    revert hk
    simp only [List.mem_cons, List.not_mem_nil, or_false] at hs
    rcases hs with rfl | rfl | rfl | rfl <;> decide

theorem held_at {w : World} {l : Layout} (S : Store (FlatArr fun _ => 1)) (u : Ref) {n : String} (hu : l.shape u = [1])
    (hn : w.name u = n) : held l w S u 0 = S n 0 := by
  subst hn
  unfold held
  rw [dif_pos ⟨by simp, by rw [hu]; simp [prodShape]⟩]
  rfl

/-- The solution of the group inside. -/
theorem fb_solved {k : Layout} (hl : ∀ u, Returned progGEnv fbOps u → k.shape u = [1]) {S : Store (FlatArr fun _ => 1)}
    (h : (fbSys k).Solved (arrOf S)) : S "y" 0 = 2 * S "x" 0 := by
  obtain ⟨h2, -⟩ := h
  rw [named_held] at h2
  have s1 := hl 1 (fb_returned.2 (by simp))
  have s2 := hl 2 (fb_returned.2 (by simp))
  have s3 := hl 3 (fb_returned.2 (by simp))
  have s4 := hl 4 (fb_returned.2 (by simp))
  have hin : InBounds [1] [0] := by simp [InBounds]
  have v1 := held_at (w := final progGEnv (ops fbProg)) S 1 s1 (n := "x") (by decide)
  have v2 := held_at (w := final progGEnv (ops fbProg)) S 2 s2 (n := "y") (by decide)
  have e3 := (h2.expr (fbProg.take 2) (.mul (.const (.num (1 / 2))) (.ref 2)) _ rfl (by decide)).2 [0]
    (by simpa [Term.outShape, Arg.shape2, s2] using hin)
  have e4 := (h2.expr (fbProg.take 3) (.add (.ref 1) (.ref 3)) _ rfl (by decide)).2 [0]
    (by simpa [Term.outShape, Arg.shape2, s1] using hin)
  have e2 := congrFun (h2.define (fbProg.take 4) 2 4 _ rfl (by decide) (by decide) (fb_notAssigned 2)) 0
  rw [show (final progGEnv (ops (fbProg.take 2))).next = 3 by decide] at e3
  rw [show (final progGEnv (ops (fbProg.take 3))).next = 4 by decide] at e4
  simp only [Term.outShape, Term.entry, Arg.shape2, Arg.entry, entryAt, s1, s2, s3, s4, ravel] at e3 e4
  have hw : worldOf progGEnv fbProg = final progGEnv (ops fbProg) := rfl
  simp [hw] at e2 e3 e4
  rw [e4, e3, v1, v2] at e2
  linarith

/-- The equations of the component. -/
theorem diff_solved {l k : Layout} (hk : ∀ u, Returned progGEnv fbOps u → k.shape u = [1])
    (hl : ∀ u, Returned progGEnv diffExplicitOps u → l.shape u = [1]) {S : Store (FlatArr fun _ => 1)}
    (h : (implSys progGEnv demoEnv diffProg l [2, 5, 6] (diffSub k)).Solved (arrOf S)) :
    S "______" 0 = 2 * S "x" 0 - S "w" 0 - S "c" 0 := by
  obtain ⟨h2, h3⟩ := h
  have hy := fb_solved hk (h3 2 (by simp) (by decide))
  rw [named_held] at h2
  have r1 : Returned progGEnv diffExplicitOps 1 := ⟨[], .declareInput "c", _, rfl, by show _ = _; decide⟩
  have r3 : Returned progGEnv diffExplicitOps 3 := ⟨diffExplicitOps.take 2, .declareInput "y", _, rfl, by show _ = _; decide⟩
  have r4 : Returned progGEnv diffExplicitOps 4 := ⟨diffExplicitOps.take 3, .declareInput "w", _, rfl, by show _ = _; decide⟩
  have r5 : Returned progGEnv diffExplicitOps 5 := ⟨diffExplicitOps.take 4, .combine [3, 4], _, rfl, by show _ = _; decide⟩
  have r6 : Returned progGEnv diffExplicitOps 6 := ⟨diffExplicitOps.take 5, .combine [5, 1], _, rfl, by show _ = _; decide⟩
  have hw : worldOf progGEnv (explicitOf progGEnv diffProg) = final progGEnv (ops diffExplicit) := rfl
  have v1 := held_at (w := final progGEnv (ops diffExplicit)) S 1 (hl 1 r1) (n := "c") (by decide)
  have v3 := held_at (w := final progGEnv (ops diffExplicit)) S 3 (hl 3 r3) (n := "y") (by decide)
  have v4 := held_at (w := final progGEnv (ops diffExplicit)) S 4 (hl 4 r4) (n := "w") (by decide)
  have v5 := held_at (w := final progGEnv (ops diffExplicit)) S 5 (hl 5 r5) (n := "_____") (by decide)
  have v6 := held_at (w := final progGEnv (ops diffExplicit)) S 6 (hl 6 r6) (n := "______") (by decide)
  have hin : InBounds [1] [0] := by simp [InBounds]
  have e5 := (h2.expr (diffExplicit.take 4) (.sub (.ref 3) (.ref 4)) _ rfl (by decide)).2 [0]
    (by simpa [Term.outShape, Arg.shape2, hl 3 r3] using hin)
  have e6 := (h2.expr (diffExplicit.take 5) (.sub (.ref 5) (.ref 1)) _ rfl (by decide)).2 [0]
    (by simpa [Term.outShape, Arg.shape2, hl 5 r5] using hin)
  rw [show (final progGEnv (ops (diffExplicit.take 4))).next = 5 by decide] at e5
  rw [show (final progGEnv (ops (diffExplicit.take 5))).next = 6 by decide] at e6
  simp only [Term.outShape, Term.entry, Arg.shape2, Arg.entry, entryAt, hl 1 r1, hl 3 r3, hl 4 r4, hl 5 r5, ravel] at e5 e6
  simp [hw, v1, v3, v4, v5, v6] at e5 e6
  rw [e6, e5, hy]

/-- What the component computes: `2 * x - w - c`, with the `x` of the group inside, whatever happened before. -/
theorem diff_residual {l k : Layout} (hok : (fbSys k).OkOn fun _ => 1)
    (hk : ∀ u, Returned progGEnv fbOps u → k.shape u = [1])
    (h : ImplCompiled progGEnv demoEnv (interface (diffSub k)) diffProg l [2, 5, 6] diffIface fun _ => 1)
    (hl : ∀ u, Returned progGEnv diffExplicitOps u → l.shape u = [1]) {s A S : Store (FlatArr fun _ => 1)}
    {cs : List (ImplCall (FlatArr fun _ => 1))} (hcs : ∀ c ∈ cs, c.Of ["w"]) (v : Store (FlatArr fun _ => 1)) :
    let p := implSysProb progGEnv diffProg l [2, 5, 6] (diffSub k) diffIface fun _ => 1
    let run := ImplRunsTo diffOnce progGEnv demoEnv diffProg l [2, 5, 6] (diffSub k) fun _ => 1
    p.DoesAll run cs s A → p.Does run (.residuals v) A S →
    S "______" 0 = 2 * S "x" 0 - v "w" 0 - v "c" 0 := by
  intro p run hA hS
  obtain ⟨h1, -, h2, -⟩ := c75_feedback_residuals h (fun _ _ _ => hok) (fun _ _ _ => diff_sequential k) hcs v hA hS
    (diff_defined l k _)
  rw [diff_solved hk hl h2, h1 "w" (by decide), h1 "c" (by decide)]

/-- Values of the variables outside the group. -/
noncomputable def diffRest (c w p q : ℝ) (n : String) : ℝ :=
  if n = "c" then c else if n = "w" then w else if n = "_____" then p else if n = "______" then q else 0

/-- The run exists: two passes over the group inside, one over the rest. -/
theorem diff_runs {l k : Layout} (hc : CompiledCore progGEnv demoEnv noSub fbProg k [1, 3, 4, 2] (fun _ => 1))
    (hok : (fbSys k).OkOn fun _ => 1) (hk : ∀ u, Returned progGEnv fbOps u → k.shape u = [1])
    (h : ImplCompiled progGEnv demoEnv (interface (diffSub k)) diffProg l [2, 5, 6] diffIface fun _ => 1)
    (hl : ∀ u, Returned progGEnv diffExplicitOps u → l.shape u = [1]) (x c w : ℝ) (v : Store (FlatArr fun _ => 1))
    (hvc : v "c" 0 = c) (hvw : v "w" 0 = w) :
    let p := implSysProb progGEnv diffProg l [2, 5, 6] (diffSub k) diffIface fun _ => 1
    p.Does (ImplRunsTo diffOnce progGEnv demoEnv diffProg l [2, 5, 6] (diffSub k) fun _ => 1) (.residuals v)
      (fbOn (diffRest 0 0 0 0) x (2 * x) 0 0) (fbOn (diffRest c w (2 * x - w) (2 * x - w - c)) x (2 * x) x (2 * x)) := by
  intro p
  have hset : p.setValues v (fbOn (diffRest 0 0 0 0) x (2 * x) 0 0) = fbOn (diffRest c w 0 0) x (2 * x) 0 0 := by
    funext n i
    obtain rfl : i = 0 := Subsingleton.elim _ _
    show (if n ∈ ["w", "c"] then v n else _) 0 = _
    by_cases h1 : n = "w"
    · subst h1; simp [fbOn, diffRest, hvw]
    by_cases h2 : n = "c"
    · subst h2; simp [fbOn, diffRest, hvc]
    · rw [if_neg (by simp [h1, h2])]
      simp [fbOn, diffRest, h1, h2]
  show ImplRunsTo _ _ _ _ _ _ _ _ (p.setValues v _) _
  rw [hset, h.runsTo fun _ _ _ => hok]
  refine Or.inl ⟨⟨l, k, rfl⟩, fbOn (diffRest c w 0 0) x (2 * x) x (2 * x), ?_,
    fbOn (diffRest c w (2 * x - w) 0) x (2 * x) x (2 * x), ?_, _, ?_, rfl⟩
  · beta_reduce
    rw [if_pos (by decide)]
    exact fb_runs hc hok hk _ x 0 0
  · have r3 : Returned progGEnv diffExplicitOps 3 := ⟨diffExplicitOps.take 2, .declareInput "y", _, rfl, by show _ = _; decide⟩
    have r4 : Returned progGEnv diffExplicitOps 4 := ⟨diffExplicitOps.take 3, .declareInput "w", _, rfl, by show _ = _; decide⟩
    beta_reduce
    rw [if_neg (by decide), renOuts_id (outsOf_shaped h.part.toCompiledOn (by simp)).ins]
    have hd := (diff_defined l k (arrOf (fbOn (diffRest c w 0 0) x (2 * x) x (2 * x)))).1
    rw [named_held] at hd
    obtain ⟨S', h1, h2, h3⟩ := run_expr h.part.toCompiledOn hd (a := diffExplicit.take 4) (u := 5) rfl (by decide) (by simp)
    rw [show (final progGEnv (ops (explicitOf progGEnv diffProg))).name 5 = "_____" by decide] at h2 h3
    refine h1.trans (congrArg Except.ok ?_)
    funext n i
    obtain rfl : i = 0 := Subsingleton.elim _ _
    by_cases hn : n = "_____"
    · subst hn
      have hin : InBounds [1] [0] := by simp [InBounds]
      have := h3 [0] (by simpa [Term.outShape, Arg.shape2, hl 3 r3] using hin) 0
        (by simp [Term.outShape, Arg.shape2, hl 3 r3, ravel])
      rw [this]
      have v3 := fun S => held_at (w := final progGEnv (ops (explicitOf progGEnv diffProg))) S 3 (hl 3 r3) (n := "y") (by decide)
      have v4 := fun S => held_at (w := final progGEnv (ops (explicitOf progGEnv diffProg))) S 4 (hl 4 r4) (n := "w") (by decide)
      simp [Term.entry, Arg.entry, entryAt, hl 3 r3, hl 4 r4, ravel, v3, v4, fbOn, diffRest]
    · rw [h2 n hn]
      simp [fbOn, diffRest, hn]
  · have r1 : Returned progGEnv diffExplicitOps 1 := ⟨[], .declareInput "c", _, rfl, by show _ = _; decide⟩
    have r5 : Returned progGEnv diffExplicitOps 5 := ⟨diffExplicitOps.take 4, .combine [3, 4], _, rfl, by show _ = _; decide⟩
    beta_reduce
    rw [if_neg (by decide), renOuts_id (outsOf_shaped h.part.toCompiledOn (by simp)).ins]
    have hd := (diff_defined l k (arrOf (fbOn (diffRest c w (2 * x - w) 0) x (2 * x) x (2 * x)))).1
    rw [named_held] at hd
    obtain ⟨S', h1, h2, h3⟩ := run_expr h.part.toCompiledOn hd (a := diffExplicit.take 5) (u := 6) rfl (by decide) (by simp)
    rw [show (final progGEnv (ops (explicitOf progGEnv diffProg))).name 6 = "______" by decide] at h2 h3
    refine h1.trans (congrArg Except.ok ?_)
    funext n i
    obtain rfl : i = 0 := Subsingleton.elim _ _
    by_cases hn : n = "______"
    · subst hn
      have hin : InBounds [1] [0] := by simp [InBounds]
      have := h3 [0] (by simpa [Term.outShape, Arg.shape2, hl 5 r5] using hin) 0
        (by simp [Term.outShape, Arg.shape2, hl 5 r5, ravel])
      rw [this]
      have v1 := fun S => held_at (w := final progGEnv (ops (explicitOf progGEnv diffProg))) S 1 (hl 1 r1) (n := "c") (by decide)
      have v5 := fun S => held_at (w := final progGEnv (ops (explicitOf progGEnv diffProg))) S 5 (hl 5 r5) (n := "_____") (by decide)
      simp [Term.entry, Arg.entry, entryAt, hl 1 r1, hl 5 r5, ravel, v1, v5, fbOn, diffRest]
    · rw [h2 n hn]
      simp [fbOn, diffRest, hn]

/-- The component exists, and `apply_nonlinear` ends. It computes `2 * x - w - c`, after any calls. -/
example (x c w : ℝ) : ∃ l k,
    let p := implSysProb progGEnv diffProg l [2, 5, 6] (diffSub k) diffIface fun _ => 1
    let run := ImplRunsTo diffOnce progGEnv demoEnv diffProg l [2, 5, 6] (diffSub k) fun _ => 1
    p.Does run (.residuals fun n _ => if n = "c" then c else w)
      (fbOn (diffRest 0 0 0 0) x (2 * x) 0 0) (fbOn (diffRest c w (2 * x - w) (2 * x - w - c)) x (2 * x) x (2 * x)) ∧
    ∀ cs : List (ImplCall (FlatArr fun _ => 1)), (∀ c ∈ cs, c.Of ["w"]) → ∀ s A S v,
      p.DoesAll run cs s A → p.Does run (.residuals v) A S → S "______" 0 = 2 * S "x" 0 - v "w" 0 - v "c" 0 := by
  obtain ⟨k, hc, hok, hk⟩ := fb_interface
  obtain ⟨l, h, hl⟩ := diff_compiled hok
  exact ⟨l, k, diff_runs hc hok hk h hl x c w _ (by simp) (by simp),
    fun cs hcs s A S v h1 h2 => diff_residual hok hk h hl hcs v h1 h2⟩

theorem diff_x_given {l k : Layout} (hok : (fbSys k).OkOn fun _ => 1)
    (h : ImplCompiled progGEnv demoEnv (interface (diffSub k)) diffProg l [2, 5, 6] diffIface fun _ => 1) :
    ∀ c ∈ implFlat progGEnv diffProg l [2, 5, 6] (diffSub k), "x" ∉ wr c := by
  intro c hc hn
  rw [h.flat_eq] at hc
  obtain ⟨u, hu, hcu⟩ := List.mem_flatMap.1 hc
  have key : u ∈ [5, 6] → False := fun hu' => by
    rw [if_neg (by
      simp only [List.mem_cons, List.not_mem_nil, or_false] at hu'
      rcases hu' with rfl | rfl <;> decide)] at hcu
    obtain rfl := List.mem_singleton.1 hcu
    rcases mem_writes h.part.ok.group.valid (by
      simp only [List.mem_cons, List.not_mem_nil, or_false] at hu'
      rcases hu' with rfl | rfl <;> decide) ((compiled_realises h.part.toCompiledOn u).2 hn) with ⟨o, o1, -, o3⟩ | ⟨o1, -⟩
    · exact diff_var o1 (by rw [show (final progGEnv diffExplicitOps).name o = "x" from o3]; decide)
    · have := diff_added o1
      subst this
      simp at hu'
  simp only [List.mem_cons, List.not_mem_nil, or_false] at hu
  rcases hu with rfl | rfl | rfl
  · rw [if_pos (by decide)] at hcu
    obtain ⟨v, hv, hdv⟩ := List.mem_flatMap.1 hcu
    have hks : (worldOf progGEnv fbProg).kind v ≠ .subsystem := by
      simp only [List.mem_cons, List.not_mem_nil, or_false] at hv
      rcases hv with rfl | rfl | rfl | rfl <;> decide
    rw [if_neg hks] at hdv
    obtain rfl := List.mem_singleton.1 hdv
    rcases comps_cases hok.1 hv with ⟨-, h1⟩ | ⟨refs, hc⟩
    · rw [show k.outsOf (worldOf progGEnv fbProg) (wiresOf progGEnv fbProg) v = [] from h1] at hn
      simp at hn
    · obtain ⟨p, hp, hpn⟩ := List.mem_map.1 hn
      obtain ⟨v', n1, r1, -, k1, k2, -⟩ := hc.out p hp
      rw [hpn] at n1
      rcases fb_returned.1 r1 with rfl | rfl | rfl | rfl
      · exact k2 (by decide)
      · exact absurd n1 (by decide)
      · exact absurd n1 (by decide)
      · exact absurd n1 (by decide)
  · exact key (by simp)
  · exact key (by simp)

/-- With the brackets `a` and `b`, for `a ≤ 2 * x - c ≤ b`, and starting from arrays that solve the group inside for its
`x`, the component computes `w = 2 * x - c`. -/
example (x c a b : ℝ) (ha : a ≤ 2 * x - c) (hb : 2 * x - c ≤ b) : ∃ l k,
    let p := implSysProb progGEnv diffProg l [2, 5, 6] (diffSub k) diffIface fun _ => 1
    let run := ImplRunsTo diffOnce progGEnv demoEnv diffProg l [2, 5, 6] (diffSub k) fun _ => 1
    ∃ f : Arr → Arr, (∀ z : Arr, ∃ S, p.Does run (.trial (fun n _ => if n = "c" then c else 0) "w" fun i => z i)
      (fbOn (diffRest 0 0 0 0) x (2 * x) 0 0) S ∧ ∀ i, f z i = if hi : i < 1 then S "______" ⟨i, hi⟩ else 0) ∧
      |bisect f 100 (fun _ => a) (fun _ => b) 0 - (2 * x - c)| ≤ |b - a| / 2 ^ 101 := by
  obtain ⟨k, hc, hok, hk⟩ := fb_interface
  obtain ⟨l, h, hl⟩ := diff_compiled hok
  refine ⟨l, k, fun z i => if i < 1 then 2 * x - z 0 - c else 0, ?_⟩
  have hrun : ∀ z : Arr, (implSysProb progGEnv diffProg l [2, 5, 6] (diffSub k) diffIface fun _ => 1).Does
      (ImplRunsTo diffOnce progGEnv demoEnv diffProg l [2, 5, 6] (diffSub k) fun _ => 1)
      (.trial (fun n _ => if n = "c" then c else 0) "w" fun i => z i) (fbOn (diffRest 0 0 0 0) x (2 * x) 0 0)
      (fbOn (diffRest c (z 0) (2 * x - z 0) (2 * x - z 0 - c)) x (2 * x) x (2 * x)) := by
    intro z
    have := diff_runs hc hok hk h hl x c (z 0) (fun n _ => if n = "c" then c else z 0) (by simp) (by simp)
    have e : ((implSysProb progGEnv diffProg l [2, 5, 6] (diffSub k) diffIface fun _ => 1).setValues
        (fun n _ => if n = "c" then c else 0) (fbOn (diffRest 0 0 0 0) x (2 * x) 0 0)).set "w" (fun i => z i) =
        (implSysProb progGEnv diffProg l [2, 5, 6] (diffSub k) diffIface fun _ => 1).setValues
        (fun n _ => if n = "c" then c else z 0) (fbOn (diffRest 0 0 0 0) x (2 * x) 0 0) := by
      funext n i
      obtain rfl : i = 0 := Subsingleton.elim _ _
      by_cases hn : n = "w"
      · subst hn
        show z 0 = (if "w" ∈ ["w", "c"] then _ else _ : FlatArr (fun _ => 1) "w") 0
        rw [if_pos (by decide)]
        simp
      · simp only [Store.set, Function.update, dif_neg hn]
        show (if n ∈ ["w", "c"] then _ else _ : FlatArr (fun _ => 1) n) 0 = (if n ∈ ["w", "c"] then _ else _ : FlatArr (fun _ => 1) n) 0
        by_cases hn' : n = "c"
        · subst hn'; rfl
        · rw [if_neg (by simp [hn, hn']), if_neg (by simp [hn, hn'])]
    show ImplRunsTo _ _ _ _ _ _ _ _ _ _
    rw [e]
    exact this
  refine ⟨fun z => ⟨_, hrun z, fun i => ?_⟩, ?_⟩
  · by_cases hi : i < 1
    · obtain rfl : i = 0 := by omega
      simp [fbOn, diffRest]
    · rw [dif_neg hi]; exact if_neg hi
  · obtain ⟨z, S, hz, h1, h2, h3, h4⟩ := c75_feedback_solved_partial (once := diffOnce) h (fun _ _ _ => hok)
      (fun _ _ _ => diff_sequential k) (fbOn (diffRest 0 0 0 0) x (2 * x) 0 0) (fun n _ => if n = "c" then c else 0)
      (out := "w") (by decide) (r := 6) (by rw [diff_residuals]; simp) (fun _ => a) (fun _ => b)
      (ρ := fun _ w => 2 * x - w - c) (N := 1) le_rfl (fun z S hz h1 h2 h3 i hi => by
        obtain rfl : i = 0 := by omega
        have e := diff_solved hk hl h3
        have ex := congrFun (h2 "x" (by decide) (diff_x_given hok h)) 0
        have ew := congrFun (h1 "w" (by decide)) 0
        have ec := congrFun (h1 "c" (by decide)) 0
        rw [ex, ew, ec] at e
        refine Eq.trans e ?_
        simp [fbOn, Function.update]) (fun z i => if i < 1 then 2 * x - z 0 - c else 0)
      (fun z hz => ⟨[], _, _, by simp, rfl, hrun z, diff_defined l k _, fun i => by
        by_cases hi : i < 1
        · obtain rfl : i = 0 := by omega
          rw [dif_pos (by decide)]
          simp [fbOn, diffRest, show (implWorld progGEnv diffProg).name 6 = "______" by decide]
        · rw [if_neg hi, dif_neg hi]⟩)
      (by rintro i -; nlinarith) (by rintro i -; fun_prop)
    obtain ⟨h5, h6⟩ := h4 0 (by omega)
    have e := diff_solved hk hl h3
    have ex := congrFun (h2 "x" (by decide) (diff_x_given hok h)) 0
    have ew := congrFun (h1 "w" (by decide)) 0
    have ec := congrFun (h1 "c" (by decide)) 0
    rw [ex, ew, ec] at e
    have e' : (0 : ℝ) = 2 * x - z 0 - c := by
      refine (h5.symm.trans e).trans ?_
      simp [fbOn, Function.update]
    rwa [show z 0 = 2 * x - c by linarith] at h6

end OM
