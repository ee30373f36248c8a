import Verif.Props.Nested

/-! # A group inside a group (C70) -/

namespace OM
open Spec

/-- A component made without omtools: it copies `g` to `h`. -/
noncomputable def boxOuts : List (String × Built) :=
  [("h", builtPass (fun u => if u = 0 then "h" else "g") (fun _ => [2]) 0 1)]

/-- The group of `waveProg`, added as `wave`; only `f` is promoted. -/
noncomputable def waveSys (l : Layout) : System :=
  .promoted "wave" ⟨[(· == "f")], [], []⟩ (.group progGEnv demoEnv waveProg l [1, 2, 3, 4, 6] fun _ => .comp [])

/-- `wave` is object 1, `box` object 4. -/
noncomputable def treeSub (l : Layout) (u : Ref) : System := if u = 1 then waveSys l else .comp boxOuts

/-- The group `wave` (1), the input `f` (2), `exp(f)` (3) registered as `g`, and the component (4). -/
noncomputable def treeProg : List Stmt :=
  [.addSubsystem "wave", .declareInput "f" [2], .expr (.unary .exp 2), .registerOutput "g" 3, .addSubsystem "box"]

def treeOps : List Op :=
  [.addSubsystem "wave", .declareInput "f", .combine [2], .registerOutput "g" 3, .addSubsystem "box"]

theorem tree_ops : ops treeProg = treeOps := rfl

noncomputable def treeSys (l k : Layout) : System := .group progGEnv demoEnv treeProg k [1, 3, 4] (treeSub l)

def treeSize (n : String) : Nat := if n = "wave.s" then 1 else 2

theorem wave_called (s : System) (n : String) :
    s.called "wave" ⟨[(· == "f")], [], []⟩ n = if n = "f" then "f" else "wave." ++ n := by
  unfold System.called promotedName
  by_cases h : n = "f"
  · subst h
    simp
  · simp [h]

theorem wave_called_inj (s : System) {x y : String}
    (h : s.called "wave" ⟨[(· == "f")], [], []⟩ x = s.called "wave" ⟨[(· == "f")], [], []⟩ y) : x = y := by
  rw [wave_called, wave_called] at h
  have hf : ∀ n : String, "f" ≠ "wave." ++ n := by
    intro n hn
    have := congrArg String.length hn
    simp at this
    change 1 = 5 + _ at this
    omega
  split at h <;> split at h
  · simp_all
  · exact absurd h (hf _)
  · exact absurd h.symm (hf _)
  · simpa using h

/-- Programs without subsystems do not see their meaning. -/
theorem wave_ok : ∃ l, (waveSys l).Ok treeSize ∧ ∀ u, Returned progGEnv waveOps u → l.shape u = waveShape u := by
  obtain ⟨l, h1, h2⟩ := wave_compiled (m := interface fun _ => .comp [])
  refine ⟨l, ⟨⟨{ h1.part with size := fun u hu => ?_ }, fun s hs hk => ?_⟩, fun x _ y _ h => wave_called_inj _ h⟩, h2⟩
  · rw [h2 u hu, Function.comp, wave_called]
    rcases wave_returned hu with rfl | rfl | rfl | rfl | rfl <;> decide
  · exfalso
    revert hk
    simp only [List.mem_cons, List.not_mem_nil, or_false] at hs
    rcases hs with rfl | rfl | rfl | rfl | rfl <;> decide

theorem wave_names {l : Layout} {n : String} (hn : n ∈ (waveSys l).writes) :
    n = "f" ∨ ∃ m, n = "wave." ++ m := by
  obtain ⟨m, _, rfl⟩ := List.mem_map.1 hn
  have := wave_called (.group progGEnv demoEnv waveProg l [1, 2, 3, 4, 6] fun _ => .comp []) m
  rw [show promotedName "wave" _ _ = _ from this]
  split
  · exact Or.inl rfl
  · exact Or.inr ⟨m, rfl⟩

theorem wave_no_reads {l : Layout} (h : (waveSys l).Ok treeSize) (n : String) : n ∉ (waveSys l).reads := by
  intro hn
  obtain ⟨x, hx, -⟩ := promoted_reads hn
  rcases group_reads h.1.on hx with ⟨v, h1, h2, -⟩ | ⟨s, hs, hk, -⟩
  · revert h2
    rcases wave_returned h1 with rfl | rfl | rfl | rfl | rfl <;> decide
  · revert hk
    simp only [List.mem_cons, List.not_mem_nil, or_false] at hs
    rcases hs with rfl | rfl | rfl | rfl | rfl <;> decide

theorem tree_added {s : Ref} (h : AddedIn progGEnv treeOps s) : s = 1 ∨ s = 4 := by
  obtain ⟨a, nm, b, e, rfl⟩ := h
  obtain ⟨i, hi, rfl, h1, _⟩ := split_cases e
  change i < 5 at hi
  interval_cases i <;> first | (simp [treeOps] at h1; done) | decide

theorem tree_var {u : Ref} (h : HasVar (final progGEnv treeOps) u) : (final progGEnv treeOps).name u = "g" := by
  obtain ⟨hu, hk⟩ := h
  change u < 5 at hu
  revert hk
  interval_cases u <;> decide

theorem dotted_ne_one (m : String) {n : String} (hn : n.length = 1) : n ≠ "wave." ++ m := by
  intro h
  have := congrArg String.length h
  simp at this
  change n.length = 5 + _ at this
  omega

theorem tree_programOk {l : Layout} (h : (waveSys l).Ok treeSize) :
    ProgramOk progGEnv demoEnv (interface (treeSub l)) treeOps where
  group := groupOk_of_check (by decide) ⟨trivial, trivial, trivial, trivial, trivial, trivial⟩ (by decide) 8
    pyOrder_ascending (by decide)
  uses := by
    intro a op b e u hu
    obtain ⟨i, hi, rfl, h1, _⟩ := split_cases e
    change i < 5 at hi
    have r2 : ∀ k, Returned progGEnv (treeOps.take (k + 2)) 2 := fun k =>
      ⟨treeOps.take 1, .declareInput "f", _, rfl, by show _ = _; decide⟩
    have r3 : ∀ k, Returned progGEnv (treeOps.take (k + 3)) 3 := fun k =>
      ⟨treeOps.take 2, .combine [2], _, rfl, by show _ = _; decide⟩
    interval_cases i <;> simp [treeOps] at h1 <;> subst h1 <;> simp [Op.uses] at hu
    · subst hu; exact r2 0
    · subst hu; exact r3 0
  feedback := by
    intro a out e b h
    obtain ⟨i, hi, rfl, h1, _⟩ := split_cases h
    change i < 5 at hi
    interval_cases i <;> simp [treeOps] at h1
  own := by
    rintro u v ⟨hu, hu'⟩ ⟨hv, hv'⟩
    change u < 5 at hu
    change v < 5 at hv
    revert hu' hv'
    interval_cases u <;> interval_cases v <;> decide
  subs := by
    intro s n hs hn
    have hbox : ∀ n, n ∈ (treeSub l 4).writes → n = "h" := fun n hn => by simpa [treeSub, System.writes, boxOuts] using hn
    have hwave : ∀ n, n ∈ (treeSub l 1).writes → n = "f" ∨ ∃ m, n = "wave." ++ m := fun n hn => wave_names hn
    rcases tree_added hs with rfl | rfl
    · refine ⟨fun u hu e => ?_, fun s' hs' hn' => ?_⟩
      · rw [tree_var hu] at e
        rcases hwave n hn with rfl | ⟨m, rfl⟩
        · revert e; decide
        · exact dotted_ne_one m (by decide) e
      · rcases tree_added hs' with rfl | rfl
        · rfl
        · exfalso
          obtain rfl := hbox n hn'
          rcases hwave _ hn with e | ⟨m, e⟩
          · revert e; decide
          · exact dotted_ne_one m (by decide) e
    · obtain rfl := hbox n hn
      refine ⟨fun u hu e => ?_, fun s' hs' hn' => ?_⟩
      · rw [tree_var hu] at e
        revert e; decide
      · rcases tree_added hs' with rfl | rfl
        · exfalso
          rcases hwave _ hn' with e | ⟨m, e⟩
          · revert e; decide
          · exact dotted_ne_one m (by decide) e
        · rfl
  inputs := by
    intro a nm b e
    obtain ⟨i, hi, rfl, h1, _⟩ := split_cases e
    change i < 5 at hi
    interval_cases i <;> simp [treeOps] at h1
    subst h1
    refine ⟨fun u hu => by rw [tree_var hu]; decide, fun s hs hn => ?_⟩
    rcases tree_added hs with rfl | rfl
    · exact ⟨[], "wave", [], rfl, by decide⟩
    · exfalso
      have : "f" = "h" := by simpa [interface, treeSub, System.writes, boxOuts] using hn
      revert this; decide
  subReads := by
    intro a nm b e n hn
    obtain ⟨i, hi, rfl, h1, _⟩ := split_cases e
    change i < 5 at hi
    interval_cases i <;> simp [treeOps] at h1
    · exact absurd hn (wave_no_reads h n)
    · subst h1
      have : n = "g" := by
        have := (List.mem_filter.1 hn).1
        simpa [treeSub, System.flat, boxOuts, insOf, builtPass, PassThrough.ins, show (final progGEnv (treeOps.take 4)).next = 4 by decide] using this
      subst this
      exact Or.inr (Or.inl ⟨3, ⟨treeOps.take 3, .registerOutput "g" 3, [], rfl, ⟨rfl, by decide⟩⟩,
        ⟨by decide, by decide⟩, by decide⟩)

theorem tree_returned {u : Ref} (h : Returned progGEnv treeOps u) : u = 2 ∨ u = 3 := by
  obtain ⟨a, op, b, e, h⟩ := h
  obtain ⟨i, hi, rfl, h1, _⟩ := split_cases e
  change i < 5 at hi
  interval_cases i <;> simp [treeOps] at h1 <;> subst h1
  · exact h.elim
  · exact Or.inl h
  · exact Or.inr h
  · exact h.elim
  · exact h.elim

theorem tree_ret {u : Ref} (h : u = 2 ∨ u = 3) : Returned progGEnv treeOps u := by
  rcases h with rfl | rfl
  · exact ⟨treeOps.take 1, .declareInput "f", _, rfl, by show _ = _; decide⟩
  · exact ⟨treeOps.take 2, .combine [2], _, rfl, by show _ = _; decide⟩

theorem tree_cases {a b : List Stmt} {st : Stmt} (e : treeProg = a ++ st :: b) :
    (a = [] ∧ st = .addSubsystem "wave") ∨ (a = treeProg.take 1 ∧ st = .declareInput "f" [2]) ∨
    (a = treeProg.take 2 ∧ st = .expr (.unary .exp 2)) ∨ (a = treeProg.take 3 ∧ st = .registerOutput "g" 3) ∨
    (a = treeProg.take 4 ∧ st = .addSubsystem "box") := by
  obtain ⟨i, hi, rfl, h1, _⟩ := split_prog e
  change i < 5 at hi
  interval_cases i <;> simp [treeProg] at h1 <;> subst h1 <;> simp [treeProg]

def treeShape (u : Ref) : List Nat := if u = 2 ∨ u = 3 then [2] else []

theorem box_ok : (System.comp boxOuts).Ok treeSize := by
  refine ⟨⟨by simp [rd, boxOuts, insOf, builtPass, PassThrough.ins], ?_, ?_, ?_, ?_⟩, ?_⟩
  all_goals simp [boxOuts, insOf, builtPass, PassThrough.ins, PassThrough.outShape, treeSize, prodShape]

theorem tree_ok : ∃ l k, (treeSys l k).Ok treeSize ∧ (∀ u, Returned progGEnv waveOps u → l.shape u = waveShape u) ∧
    ∀ u, Returned progGEnv treeOps u → k.shape u = treeShape u := by
  obtain ⟨l, hw, hl⟩ := wave_ok
  obtain ⟨k, h1, h2⟩ := c69_compiles (genv := progGEnv) (env := demoEnv) (m := interface (treeSub l)) (prog := treeProg)
    (shape := treeShape) (tree_programOk hw).toProgramCore rfl
    (fun a st b e => by rcases tree_cases e with ⟨_, rfl⟩ | ⟨_, rfl⟩ | ⟨_, rfl⟩ | ⟨_, rfl⟩ | ⟨_, rfl⟩ <;> trivial)
    (fun a st b e => by
      rcases tree_cases e with ⟨rfl, rfl⟩ | ⟨rfl, rfl⟩ | ⟨rfl, rfl⟩ | ⟨rfl, rfl⟩ | ⟨rfl, rfl⟩
      · trivial
      · show treeShape _ = _; decide
      · exact ⟨trivial, by decide⟩
      · trivial
      · trivial)
  refine ⟨l, k, ⟨Compiled.part ⟨.of (tree_programOk hw).toProgramCore h1 (by rw [tree_ops]; decide) (fun u hu => ?_) ?_ ?_ ?_ ?_, tree_programOk hw⟩, ?_⟩, hl, h2⟩
  · rw [h2 u hu]
    rcases tree_returned hu with rfl | rfl <;> decide
  · intro a out e b he
    rw [tree_ops] at he
    obtain ⟨i, hi, rfl, h1, _⟩ := split_cases he
    change i < 5 at hi
    interval_cases i <;> simp [treeOps] at h1
  · intro a x key b e
    rcases tree_cases e with ⟨_, h⟩ | ⟨_, h⟩ | ⟨_, h⟩ | ⟨_, h⟩ | ⟨_, h⟩ <;> cases h
  · intro a x key u b e
    rcases tree_cases e with ⟨_, h⟩ | ⟨_, h⟩ | ⟨_, h⟩ | ⟨_, h⟩ | ⟨_, h⟩ <;> cases h
  · intro a c b e
    rcases tree_cases e with ⟨_, h⟩ | ⟨_, h⟩ | ⟨_, h⟩ | ⟨_, h⟩ | ⟨_, h⟩ <;> cases h
    trivial
  · intro s hs hk
    simp only [List.mem_cons, List.not_mem_nil, or_false] at hs
    rcases hs with rfl | rfl | rfl
    · exact hw
    · exact absurd hk (by decide)
    · exact box_ok

/-- `exp` and copying are defined everywhere. -/
theorem tree_defined (l k : Layout) (arr : String → Nat → ℝ) : (treeSys l k).Defined arr := by
  refine ⟨fun a c b e _ => ?_, fun s hs hk => ?_⟩
  · rcases tree_cases e with ⟨_, h⟩ | ⟨_, h⟩ | ⟨_, h⟩ | ⟨_, h⟩ | ⟨_, h⟩ <;> cases h
    exact ⟨fun _ _ => trivial, by simp⟩
  · simp only [List.mem_cons, List.not_mem_nil, or_false] at hs
    rcases hs with rfl | rfl | rfl
    · refine ⟨fun a c b e _ => ?_, fun s hs hk => ?_⟩
      · obtain ⟨i, hi, rfl, he, _⟩ := split_prog e
        change i < 7 at hi
        interval_cases i <;> simp [waveProg] at he <;> subst he
        · exact ⟨fun _ _ => trivial, by simp⟩
        · exact ⟨by simp, by simp⟩
        · trivial
      · exfalso
        revert hk
        simp only [List.mem_cons, List.not_mem_nil, or_false] at hs
        rcases hs with rfl | rfl | rfl | rfl | rfl <;> decide
    · exact absurd hk (by decide)
    · intro p hp
      obtain rfl := List.mem_singleton.1 hp
      refine ⟨fun idx => arr "g" (ravel [2] idx), fun inp hin => ?_⟩
      obtain ⟨_, _, h5⟩ := c60_define_partial ⟨"h", [2], "g", [2]⟩ rfl inp
      refine good_of rfl (fun idx _ => ?_) h5
      have : inp "g" = arr "g" := hin "g" (by simp [boxOuts, insOf, builtPass, PassThrough.ins])
      show inp "g" _ = _
      rw [this]
      rfl

theorem tree_near {P : Type} [TopologicalSpace P] (l k : Layout) (arr : P → String → Nat → ℝ) (p₀ : P) :
    (treeSys l k).Near arr p₀ := by
  intro s hs hk
  simp only [List.mem_cons, List.not_mem_nil, or_false] at hs
  rcases hs with rfl | rfl | rfl
  · intro s hs hk
    exfalso
    revert hk
    simp only [List.mem_cons, List.not_mem_nil, or_false] at hs
    rcases hs with rfl | rfl | rfl | rfl | rfl <;> decide
  · exact absurd hk (by decide)
  · exact Filter.Eventually.of_forall fun p => (tree_defined l k (arr p)).2 4 (by simp) (by decide)

theorem tree_value {l k : Layout} (hl : ∀ u, Returned progGEnv waveOps u → l.shape u = waveShape u)
    (hk : ∀ u, Returned progGEnv treeOps u → k.shape u = treeShape u) {arr : String → Nat → ℝ}
    (h : (treeSys l k).Solved arr) {i : Nat} (hi : i < 2) :
    arr "h" i = Real.exp (arr "wave.x" i * Real.exp (arr "wave.x" i)) := by
  obtain ⟨h1, h2⟩ := h
  have hr : ravel [2] [i] = i := by simp [ravel, prodShape]
  have hb : InBounds [2] [i] := by simpa [InBounds] using hi
  have hbox : arr "h" i = arr "g" i := by
    have hh : Holds arr boxOuts := h2 4 (by simp) (by decide)
    obtain ⟨r, r1, r2⟩ := (hh arr (fun _ _ => rfl) _ (List.mem_singleton_self _)).value
    have r3 := r2 [i] hb
    have r4 : r = arr "g" := by
      have : Except.ok (ε := PyErr) (arr "g") = .ok r := r1
      cases this
      rfl
    rw [r4] at r3
    change arr "g" (ravel [2] [i]) = arr "h" (ravel [2] [i]) at r3
    rw [hr] at r3
    exact r3.symm
  have hg : arr "g" i = Real.exp (arr "f" i) := by
    have k2 : k.shape 2 = [2] := hk 2 (tree_ret (by simp))
    have k3 : k.shape 3 = [2] := hk 3 (tree_ret (by simp))
    have h3 := (h1.expr (treeProg.take 2) (.unary .exp 2) _ rfl (by decide)).2 [i] (by
      rw [show Term.outShape k.shape (.unary .exp 2) = [2] from k2]; exact hb)
    rw [show Term.outShape k.shape (.unary .exp 2) = [2] from k2, hr,
      show (final progGEnv (ops (treeProg.take 2))).next = 3 by decide] at h3
    simpa [named, Term.entry, entryAt, k2, k3, Unary.named, hr, prodShape, hi,
      show (worldOf progGEnv treeProg).name 3 = "g" by decide,
      show (worldOf progGEnv treeProg).name 2 = "f" by decide] using h3
  obtain ⟨h3, -⟩ : (System.group progGEnv demoEnv waveProg l [1, 2, 3, 4, 6] fun _ => .comp []).Solved
    (arr ∘ System.called "wave" ⟨[(· == "f")], [], []⟩ _) := h2 1 (by simp) (by decide)
  have l1 : l.shape 1 = [2] := hl 1 (wave_ret (by simp))
  have l2 : l.shape 2 = [2] := hl 2 (wave_ret (by simp))
  have l3 : l.shape 3 = [2] := hl 3 (wave_ret (by simp))
  have l4 : l.shape 4 = [2] := hl 4 (wave_ret (by simp))
  have n1 : named l (worldOf progGEnv waveProg) (arr ∘ System.called "wave" ⟨[(· == "f")], [], []⟩
      (System.group progGEnv demoEnv waveProg l [1, 2, 3, 4, 6] fun _ => .comp [])) 1 i = arr "wave.x" i := by
    simp [named, l1, prodShape, hi, show (worldOf progGEnv waveProg).name 1 = "x" by decide, wave_called]
  have n4 : named l (worldOf progGEnv waveProg) (arr ∘ System.called "wave" ⟨[(· == "f")], [], []⟩
      (System.group progGEnv demoEnv waveProg l [1, 2, 3, 4, 6] fun _ => .comp [])) 4 i = arr "f" i := by
    simp [named, l4, prodShape, hi, show (worldOf progGEnv waveProg).name 4 = "f" by decide, wave_called]
  have e2 := (h3.expr (waveProg.take 1) (.unary .exp 1) _ rfl (by decide)).2 [i] (by
    rw [show Term.outShape l.shape (.unary .exp 1) = [2] from l1]; exact hb)
  rw [show Term.outShape l.shape (.unary .exp 1) = [2] from l1, hr,
    show (final progGEnv (ops (waveProg.take 1))).next = 2 by decide] at e2
  simp only [Term.entry, entryAt, l1, Unary.named, hr, n1] at e2
  have e3 := (h3.expr (waveProg.take 2) (.mul (.ref 1) (.ref 2)) _ rfl (by decide)).2 [i] (by
    rw [show Term.outShape l.shape (.mul (.ref 1) (.ref 2)) = [2] from l1]; exact hb)
  rw [show Term.outShape l.shape (.mul (.ref 1) (.ref 2)) = [2] from l1, hr,
    show (final progGEnv (ops (waveProg.take 2))).next = 3 by decide] at e3
  simp only [Term.entry, Arg.entry, entryAt, l1, l2, hr, n1, e2] at e3
  have e4 := congrFun (h3.define (waveProg.take 4) 4 3 _ rfl (by decide) (by decide) (by
    rintro ⟨a, key, e, b, he⟩
    exact (wave_noItem he).2 4 key e rfl)) i
  rw [hbox, hg, ← n4, e4, e3]

theorem tree_given {l k : Layout} (h : (treeSys l k).Ok treeSize) : (treeSys l k).Given "wave.x" := by
  intro c hc hn
  obtain ⟨u, hu, hcu⟩ := List.mem_flatMap.1 hc
  simp only [List.mem_cons, List.not_mem_nil, or_false] at hu
  rcases hu with rfl | rfl | rfl
  · rw [if_pos (by decide)] at hcu
    obtain ⟨d, hd, rfl⟩ := List.mem_map.1 hcu
    rw [wr_renOuts] at hn
    obtain ⟨x, hx, hxe⟩ := List.mem_map.1 hn
    obtain rfl : x = "x" := wave_called_inj _ (hxe.trans (by rw [wave_called]; decide))
    obtain ⟨v, hv, hdv⟩ := List.mem_flatMap.1 hd
    have hw : (waveSys l).Ok treeSize := h.2 1 (by simp) (by decide)
    have hk : (worldOf progGEnv waveProg).kind v ≠ .subsystem := by
      simp only [List.mem_cons, List.not_mem_nil, or_false] at hv
      rcases hv with rfl | rfl | rfl | rfl | rfl <;> decide
    rw [if_neg hk] at hdv
    obtain rfl := List.mem_singleton.1 hdv
    exact given_unwritten hw.1.1 (wave_ret (u := 1) (by simp)) (by decide) hv hx
  · rw [if_neg (by decide)] at hcu
    obtain rfl := List.mem_singleton.1 hcu
    rcases mem_writes h.1.ok.group.valid (by decide) ((compiled_realises h.1.toCompiledOn 3).2 hn) with ⟨o, o1, -, o3⟩ | ⟨o1, -⟩
    · rw [tree_ops] at o1 o3
      rw [tree_var o1] at o3
      revert o3; decide
    · have := tree_added o1
      omega
  · rw [if_pos (by decide)] at hcu
    obtain rfl := List.mem_singleton.1 hcu
    simp [boxOuts] at hn

/-- Whatever `x` is, the nested groups compute `h = exp(x exp(x))`, and the totals are derivatives. -/
example {P : Type} [NormedAddCommGroup P] [NormedSpace ℝ P] (init : P → Store (FlatArr treeSize)) (p₀ : P)
    (d₀ : (n : String) → P →L[ℝ] FlatArr treeSize n) (hinit : ∀ n, HasFDerivAt (fun p => init p n) (d₀ n) p₀) :
    ∃ l k S, (treeSys l k).run treeSize (init p₀) = .ok S ∧
      (∀ i : Fin 2, S "h" i = Real.exp (init p₀ "wave.x" i * Real.exp (init p₀ "wave.x" i))) ∧
      ∃ d, TotalSystem (· ∈ (treeSys l k).all) ((treeSys l k).comps treeSize) ((treeSys l k).partials treeSize) S d₀ d ∧
        HasFDerivAt (fun p => runAll ((treeSys l k).all.map ((treeSys l k).comps treeSize)) (init p) "h") (d "h") p₀ := by
  obtain ⟨l, k, h, hl, hk⟩ := tree_ok
  obtain ⟨h1, h2, h3⟩ := c70_run _ h (tree_defined l k _) (tree_near l k _ p₀) hinit
  obtain ⟨r1, r2, r3⟩ := h1.self_of_nhds
  refine ⟨l, k, _, r1, fun i => ?_, _, (h3 _).2 rfl, h2 "h"⟩
  have := tree_value hl hk r2 i.2
  have e1 := arrOf_eq (size := treeSize) (runAll ((treeSys l k).all.map ((treeSys l k).comps treeSize)) (init p₀)) "h" i
  have e2 := arrOf_eq (size := treeSize) (runAll ((treeSys l k).all.map ((treeSys l k).comps treeSize)) (init p₀)) "wave.x" i
  have e3 := congrFun (r3 "wave.x" (tree_given h)) i
  exact e1.trans (this.trans (by rw [← e3]; exact congrArg (fun t => Real.exp (t * Real.exp t)) e2.symm))

end OM
