import Verif.Props.Solvers

/-! # A group with feedback inside a group (C78) -/

namespace OM
open Spec

/-- The group of `fbProg`, where `y` is defined as `x + 0.5 * y`. -/
noncomputable def fbSys (l : Layout) : System := .group progGEnv demoEnv fbProg l [1, 3, 4, 2] fun _ => .comp []

/-- That group, with all names promoted (1), the input `y` (2) and `exp(y)` (3) registered as `z`. -/
noncomputable def loopProg : List Stmt :=
  [.addSubsystem "loop", .declareInput "y" [1], .expr (.unary .exp 2), .registerOutput "z" 3]

def loopOps : List Op := [.addSubsystem "loop", .declareInput "y", .combine [2], .registerOutput "z" 3]

theorem loop_ops : ops loopProg = loopOps := rfl

noncomputable def loopSys (l k : Layout) : System := .group progGEnv demoEnv loopProg k [1, 3] fun _ => fbSys l

theorem fb_interface : ∃ l, CompiledCore progGEnv demoEnv noSub fbProg l [1, 3, 4, 2] (fun _ => 1) ∧
    (fbSys l).OkOn (fun _ => 1) ∧ ∀ u, Returned progGEnv fbOps u → l.shape u = [1] := by
  obtain ⟨l, h, hl⟩ := fb_compiled (m := noSub)
  obtain ⟨l', h', -⟩ := fb_compiled (m := interface fun _ => .comp [])
  have e := h'.compile
  rw [h.compile] at e
  cases e
  refine ⟨l, h, ⟨h'.toCompiledOn, fun s hs hk => ?_⟩, hl⟩
  exfalso
  revert hk
  simp only [List.mem_cons, List.not_mem_nil, or_false] at hs
  rcases hs with rfl | rfl | rfl | rfl <;> decide

theorem fbSys_names {l : Layout} (h : (fbSys l).OkOn fun _ => 1) {n : String} (hn : n ∈ (fbSys l).writes) :
    n = "x" ∨ n = "y" ∨ n = "___" ∨ n = "____" := by
  rcases group_writes h hn with ⟨v, ⟨hv, hk⟩, rfl⟩ | ⟨s, hs, hk, -⟩
  · change v < 6 at hv
    revert hk
    interval_cases v <;> decide
  · exfalso
    revert hk
    simp only [List.mem_cons, List.not_mem_nil, or_false] at hs
    rcases hs with rfl | rfl | rfl | rfl <;> decide

theorem fbSys_noReads {l : Layout} (h : (fbSys l).OkOn fun _ => 1) (n : String) : n ∉ (fbSys l).reads := by
  intro hn
  rcases group_reads h hn with ⟨v, h1, h2, -⟩ | ⟨s, hs, hk, -⟩
  · revert h2
    rcases fb_returned.1 h1 with rfl | rfl | rfl | rfl <;> decide
  · revert hk
    simp only [List.mem_cons, List.not_mem_nil, or_false] at hs
    rcases hs with rfl | rfl | rfl | rfl <;> decide

theorem loop_added {s : Ref} (h : AddedIn progGEnv loopOps s) : s = 1 := by
  obtain ⟨a, nm, b, e, rfl⟩ := h
  obtain ⟨i, hi, rfl, h1, _⟩ := split_cases e
  change i < 4 at hi
  interval_cases i <;> first | (simp [loopOps] at h1; done) | decide

theorem loop_var {u : Ref} (h : HasVar (final progGEnv loopOps) u) : (final progGEnv loopOps).name u = "z" := by
  obtain ⟨hu, hk⟩ := h
  change u < 4 at hu
  revert hk
  interval_cases u <;> decide

theorem loop_programOk {l : Layout} (h : (fbSys l).OkOn fun _ => 1) :
    ProgramOk progGEnv demoEnv (interface fun _ => fbSys l) loopOps where
  group := groupOk_of_check (by decide) ⟨trivial, trivial, trivial, trivial, trivial⟩ (by decide) 8
    pyOrder_ascending (by decide)
  uses := by
    intro a op b e u hu
    obtain ⟨i, hi, rfl, h1, _⟩ := split_cases e
    change i < 4 at hi
    have r2 : ∀ k, Returned progGEnv (loopOps.take (k + 2)) 2 := fun k =>
      ⟨loopOps.take 1, .declareInput "y", _, rfl, by show _ = _; decide⟩
    have r3 : ∀ k, Returned progGEnv (loopOps.take (k + 3)) 3 := fun k =>
      ⟨loopOps.take 2, .combine [2], _, rfl, by show _ = _; decide⟩
    interval_cases i <;> simp [loopOps] at h1 <;> subst h1 <;> simp [Op.uses] at hu
    · subst hu; exact r2 0
    · subst hu; exact r3 0
  feedback := by
    intro a out e b h
    obtain ⟨i, hi, rfl, h1, _⟩ := split_cases h
    change i < 4 at hi
    interval_cases i <;> simp [loopOps] at h1
  own := by
    rintro u v ⟨hu, hu'⟩ ⟨hv, hv'⟩
    change u < 4 at hu
    change v < 4 at hv
    revert hu' hv'
    interval_cases u <;> interval_cases v <;> decide
  subs := by
    intro s n hs hn
    obtain rfl := loop_added hs
    refine ⟨fun u hu e => ?_, fun s' hs' _ => (loop_added hs').symm⟩
    rw [loop_var hu] at e
    rcases fbSys_names h hn with rfl | rfl | rfl | rfl <;> revert e <;> decide
  inputs := by
    intro a nm b e
    obtain ⟨i, hi, rfl, h1, _⟩ := split_cases e
    change i < 4 at hi
    interval_cases i <;> simp [loopOps] at h1
    subst h1
    refine ⟨fun u hu => by rw [loop_var hu]; decide, fun s hs hn => ?_⟩
    obtain rfl := loop_added hs
    exact ⟨[], "loop", [], rfl, by decide⟩
  subReads := by
    intro a nm b e n hn
    exact absurd hn (fbSys_noReads h n)

theorem loop_returned {u : Ref} (h : Returned progGEnv loopOps u) : u = 2 ∨ u = 3 := by
  obtain ⟨a, op, b, e, h⟩ := h
  obtain ⟨i, hi, rfl, h1, _⟩ := split_cases e
  change i < 4 at hi
  interval_cases i <;> simp [loopOps] at h1 <;> subst h1
  · exact h.elim
  · exact Or.inl h
  · exact Or.inr h
  · exact h.elim

theorem loop_ret {u : Ref} (h : u = 2 ∨ u = 3) : Returned progGEnv loopOps u := by
  rcases h with rfl | rfl
  · exact ⟨loopOps.take 1, .declareInput "y", _, rfl, by show _ = _; decide⟩
  · exact ⟨loopOps.take 2, .combine [2], _, rfl, by show _ = _; decide⟩

theorem loop_cases {a b : List Stmt} {st : Stmt} (e : loopProg = a ++ st :: b) :
    (a = [] ∧ st = .addSubsystem "loop") ∨ (a = loopProg.take 1 ∧ st = .declareInput "y" [1]) ∨
    (a = loopProg.take 2 ∧ st = .expr (.unary .exp 2)) ∨ (a = loopProg.take 3 ∧ st = .registerOutput "z" 3) := by
  obtain ⟨i, hi, rfl, h1, _⟩ := split_prog e
  change i < 4 at hi
  interval_cases i <;> simp [loopProg] at h1 <;> subst h1 <;> simp [loopProg]

def loopShape (u : Ref) : List Nat := if u = 2 ∨ u = 3 then [1] else []

theorem loop_part {l : Layout} (h : (fbSys l).OkOn fun _ => 1) : ∃ k,
    CompiledPart progGEnv demoEnv (interface fun _ => fbSys l) loopProg k [1, 3] (fun _ => 1) ∧ k.shape 2 = [1] ∧
    k.shape 3 = [1] := by
  obtain ⟨k, h1, h2⟩ := c69_compiles (genv := progGEnv) (env := demoEnv) (m := interface fun _ => fbSys l)
    (prog := loopProg) (shape := loopShape) (loop_programOk h).toProgramCore rfl
    (fun a st b e => by rcases loop_cases e with ⟨_, rfl⟩ | ⟨_, rfl⟩ | ⟨_, rfl⟩ | ⟨_, rfl⟩ <;> trivial)
    (fun a st b e => by
      rcases loop_cases e with ⟨rfl, rfl⟩ | ⟨rfl, rfl⟩ | ⟨rfl, rfl⟩ | ⟨rfl, rfl⟩
      · trivial
      · show loopShape _ = _; decide
      · exact ⟨trivial, by decide⟩
      · trivial)
  refine ⟨k, Compiled.part ⟨.of (loop_programOk h).toProgramCore h1 (by rw [loop_ops]; decide) (fun u hu => ?_) ?_ ?_ ?_ ?_,
    loop_programOk h⟩, (h2 2 (loop_ret (by simp))).trans (by decide), (h2 3 (loop_ret (by simp))).trans (by decide)⟩
  · rw [h2 u hu]
    rcases loop_returned hu with rfl | rfl <;> decide
  · intro a out e b he
    rw [loop_ops] at he
    obtain ⟨i, hi, rfl, h1, _⟩ := split_cases he
    change i < 4 at hi
    interval_cases i <;> simp [loopOps] at h1
  · intro a x key b e
    rcases loop_cases e with ⟨_, h⟩ | ⟨_, h⟩ | ⟨_, h⟩ | ⟨_, h⟩ <;> cases h
  · intro a x key u b e
    rcases loop_cases e with ⟨_, h⟩ | ⟨_, h⟩ | ⟨_, h⟩ | ⟨_, h⟩ <;> cases h
  · intro a c b e
    rcases loop_cases e with ⟨_, h⟩ | ⟨_, h⟩ | ⟨_, h⟩ | ⟨_, h⟩ <;> cases h
    trivial

/-- The system is accepted. -/
theorem loop_ok {l k : Layout} (h : (fbSys l).OkOn fun _ => 1)
    (hk : CompiledPart progGEnv demoEnv (interface fun _ => fbSys l) loopProg k [1, 3] (fun _ => 1)) :
    (loopSys l k).OkOn fun _ => 1 :=
  ⟨hk.toCompiledOn, fun _ _ _ => h⟩

/-- The group inside is iterated, the group around it is run once. -/
def loopOnce (s : System) : Prop := ∃ l k, s = loopSys l k

theorem loop_sequential {l k : Layout}
    (hk : CompiledPart progGEnv demoEnv (interface fun _ => fbSys l) loopProg k [1, 3] (fun _ => 1)) :
    (loopSys l k).Sequential loopOnce fun _ => 1 := by
  refine ⟨fun _ => hk, fun _ _ _ => ⟨fun ⟨l', k', e⟩ => ?_, fun s hs hk => ?_⟩⟩
  · have h1 : fbProg = loopProg := by
      unfold loopSys at e
      injection e
    have := congrArg List.length h1
    simp [fbProg, loopProg] at this
  · exfalso
    revert hk
    simp only [List.mem_cons, List.not_mem_nil, or_false] at hs
    rcases hs with rfl | rfl | rfl | rfl <;> decide

theorem loop_defined (l k : Layout) (arr : String → Nat → ℝ) : (loopSys l k).Defined arr := by
  refine ⟨fun a c b e _ => ?_, fun s hs hk => ⟨fb_defined _, fun s hs hk => ?_⟩⟩
  · rcases loop_cases e with ⟨_, h⟩ | ⟨_, h⟩ | ⟨_, h⟩ | ⟨_, h⟩ <;> cases h
    exact ⟨fun _ _ => trivial, by simp⟩
  · exfalso
    revert hk
    simp only [List.mem_cons, List.not_mem_nil, or_false] at hs
    rcases hs with rfl | rfl | rfl | rfl <;> decide

/-- All variables; `z` is the one that the group inside does not see. -/
noncomputable def loopStore (x y a b z : ℝ) : Store (FlatArr fun _ => 1) := fbOn (fun n => if n = "z" then z else 0) x y a b

/-- One pass over the group inside. -/
theorem fb_pass {l : Layout} (h : CompiledCore progGEnv demoEnv noSub fbProg l [1, 3, 4, 2] (fun _ => 1))
    (hok : (fbSys l).OkOn fun _ => 1) (hl : ∀ u, Returned progGEnv fbOps u → l.shape u = [1]) (once : System → Prop)
    (R : String → ℝ) (x y a b : ℝ) :
    sweep (fun u s t =>
        if (worldOf progGEnv fbProg).kind u = .subsystem then (System.comp []).RunsTo once (fun _ => 1) id s t
        else (outsCompE (fun _ => 1) (renOuts id (l.outsOf (worldOf progGEnv fbProg) (wiresOf progGEnv fbProg) u))).run s
          = .ok t) [1, 3, 4, 2] (fbOn R x y a b) (fbOn R x (x + y / 2) (y / 2) (x + y / 2)) := by
  have hrun : ∀ u ∈ [1, 3, 4, 2], ∀ {A B : Store (FlatArr fun _ => 1)},
      (l.compE (final progGEnv (ops fbProg)) (wires progGEnv (ops fbProg)) (fun _ => 1) u).run A = .ok B →
      (if (worldOf progGEnv fbProg).kind u = .subsystem then (System.comp []).RunsTo once (fun _ => 1) id A B
        else (outsCompE (fun _ => 1) (renOuts id (l.outsOf (worldOf progGEnv fbProg) (wiresOf progGEnv fbProg) u))).run A
          = .ok B) := by
    intro u hu A B hAB
    have hk : (worldOf progGEnv fbProg).kind u ≠ .subsystem := by
      simp only [List.mem_cons, List.not_mem_nil, or_false] at hu
      rcases hu with rfl | rfl | rfl | rfl <;> decide
    rw [if_neg hk, renOuts_id (outsOf_shaped hok.1 hu).ins]
    exact hAB
  obtain ⟨h1, -, -, -⟩ := fb_compsOn h hl R x y a b
  obtain ⟨-, h2, -, -⟩ := fb_compsOn h hl R x y a b
  obtain ⟨-, -, h3, -⟩ := fb_compsOn h hl R x y (y / 2) b
  obtain ⟨-, -, -, h4⟩ := fb_compsOn h hl R x y (y / 2) (x + y / 2)
  exact ⟨_, hrun 1 (by simp) h1, _, hrun 3 (by simp) h2, _, hrun 4 (by simp) h3, _, hrun 2 (by simp) h4, rfl⟩

/-- Started with `y = 2 x`, the group is done after two passes. -/
theorem fb_runs {l : Layout} (h : CompiledCore progGEnv demoEnv noSub fbProg l [1, 3, 4, 2] (fun _ => 1))
    (hok : (fbSys l).OkOn fun _ => 1) (hl : ∀ u, Returned progGEnv fbOps u → l.shape u = [1]) {once : System → Prop}
    (R : String → ℝ) (x a b : ℝ) :
    (fbSys l).RunsTo once (fun _ => 1) id (fbOn R x (2 * x) a b) (fbOn R x (2 * x) x (2 * x)) := by
  have h1 := fb_pass h hok hl once R x (2 * x) a b
  have h2 := fb_pass h hok hl once R x (2 * x) x (2 * x)
  rw [show x + 2 * x / 2 = 2 * x by ring, show 2 * x / 2 = x by ring] at h1 h2
  exact Or.inr ⟨.single h1, h2⟩

/-- Started with `y = 2 x`, the group inside needs two passes, and the group around it is run once. -/
theorem loop_runs {l k : Layout} (h : CompiledCore progGEnv demoEnv noSub fbProg l [1, 3, 4, 2] (fun _ => 1))
    (hok : (fbSys l).OkOn fun _ => 1) (hl : ∀ u, Returned progGEnv fbOps u → l.shape u = [1])
    (hk : CompiledPart progGEnv demoEnv (interface fun _ => fbSys l) loopProg k [1, 3] (fun _ => 1))
    (k2 : k.shape 2 = [1]) (x a b z : ℝ) :
    (loopSys l k).RunsTo loopOnce (fun _ => 1) id (loopStore x (2 * x) a b z)
      (loopStore x (2 * x) x (2 * x) (Real.exp (2 * x))) := by
  refine Or.inl ⟨⟨l, k, rfl⟩, loopStore x (2 * x) x (2 * x) z, ?_, loopStore x (2 * x) x (2 * x) (Real.exp (2 * x)), ?_, rfl⟩
  · beta_reduce
    rw [if_pos (by decide)]
    exact fb_runs h hok hl _ x a b
  · beta_reduce
    rw [if_neg (by decide), renOuts_id (outsOf_shaped hk.toCompiledOn (by simp)).ins]
    have hd := (loop_defined l k (arrOf (loopStore x (2 * x) x (2 * x) z))).1
    rw [named_held] at hd
    obtain ⟨S', h1, h2, h3⟩ := run_expr hk.toCompiledOn hd (a := loopProg.take 2) (u := 3) rfl (by decide) (by simp)
    have n3 : (final progGEnv (ops loopProg)).name 3 = "z" := by decide
    have n2 : (final progGEnv (ops loopProg)).name 2 = "y" := by decide
    rw [n3] at h2 h3
    refine h1.trans (congrArg Except.ok ?_)
    funext n i
    obtain rfl : i = 0 := Subsingleton.elim _ _
    by_cases hn : n = "z"
    · subst hn
      have hin : InBounds [1] [0] := by simp [InBounds]
      rw [h3 [0] (by rw [show Term.outShape k.shape (.unary .exp 2) = [1] from k2]; exact hin) 0 (by
        rw [show Term.outShape k.shape (.unary .exp 2) = [1] from k2]; simp [ravel])]
      have hheld : held k (final progGEnv (ops loopProg)) (loopStore x (2 * x) x (2 * x) z) 2 0 = 2 * x := by
        unfold held
        rw [dif_pos ⟨by simp, by rw [k2]; simp [prodShape]⟩, n2]
        simp [loopStore, fbOn]
      simp only [Term.entry, entryAt, k2, ravel, Unary.named]
      rw [show 0 * prodShape [] + 0 = 0 by simp, hheld]
      simp [loopStore, fbOn]
    · rw [h2 n hn]
      simp [loopStore, fbOn, hn]

/-- What the run ends with solves the equations of both groups. -/
example (x : ℝ) : ∃ l k, (loopSys l k).RunsTo loopOnce (fun _ => 1) id (loopStore x (2 * x) 0 0 0)
      (loopStore x (2 * x) x (2 * x) (Real.exp (2 * x))) ∧
    (loopSys l k).Solved (arrOf (loopStore x (2 * x) x (2 * x) (Real.exp (2 * x)))) := by
  obtain ⟨l, h, hok, hl⟩ := fb_interface
  obtain ⟨k, hk, k2, k3⟩ := loop_part hok
  have hr := loop_runs h hok hl hk k2 x 0 0 0
  exact ⟨l, k, hr, (c78_runs _ (loop_ok hok hk) (loop_sequential hk) hr (loop_defined l k _)).1⟩

end OM
