import Verif.Lemmas.History

/-! # Whole histories of API calls -/

namespace OM
open Spec

theorem run_append (env : GEnv) (w : World) (a b : List Op) :
    run env w (a ++ b) = run env (run env w a) b := by simp [run, List.foldl_append]

theorem run_cons (env : GEnv) (w : World) (op : Op) (b : List Op) :
    run env w (op :: b) = run env (step env w op).1 b := rfl

theorem validFrom_append (env : GEnv) (a b : List Op) : ∀ w, ValidFrom env w (a ++ b) ↔
    ValidFrom env w a ∧ ValidFrom env (run env w a) b := by
  induction a with
  | nil => intro w; simp [ValidFrom, run]
  | cons op a ih =>
    intro w
    rw [List.cons_append, run_cons]
    simp only [ValidFrom]
    rw [ih, and_assoc]

theorem safeFrom_append (env : GEnv) (a b : List Op) : ∀ w, SafeFrom env w (a ++ b) ↔
    SafeFrom env w a ∧ SafeFrom env (run env w a) b := by
  induction a with
  | nil => intro w; simp [SafeFrom, run]
  | cons op a ih =>
    intro w
    rw [List.cons_append, run_cons]
    simp only [SafeFrom]
    rw [ih, and_assoc]

theorem run_ok {env : GEnv} (ops : List Op) : ∀ {w : World}, WorldOk w → ValidFrom env w ops →
    WorldOk (run env w ops) := by
  induction ops with
  | nil => intro w ok _; exact ok
  | cons op ops ih => intro w ok hv; exact ih (step_ok ok hv.1) hv.2

theorem run_acyclic {env : GEnv} (ops : List Op) : ∀ {w : World}, WorldOk w → AcyclicG w.deps →
    ValidFrom env w ops → SafeFrom env w ops → AcyclicG (run env w ops).deps := by
  induction ops with
  | nil => intro w _ h _ _; exact h
  | cons op ops ih =>
    intro w ok h hv hs
    exact ih (step_ok ok hv.1) (step_acyclic ok h hv.1 hs.1) hv.2 hs.2

theorem run_outs {env : GEnv} (ops : List Op) : ∀ {w : World}, WorldOk w → OutsOk w →
    ValidFrom env w ops → OutsOk (run env w ops) := by
  induction ops with
  | nil => intro w _ h _; exact h
  | cons op ops ih =>
    intro w ok h hv
    exact ih (step_ok ok hv.1) (step_outs ok h hv.1) hv.2

theorem run_next {env : GEnv} (ops : List Op) : ∀ {w : World}, WorldOk w → ValidFrom env w ops →
    w.next ≤ (run env w ops).next := by
  induction ops with
  | nil => intro w _ _; exact le_rfl
  | cons op ops ih =>
    intro w ok hv
    exact le_trans (step_keeps ok hv.1).1 (ih (step_ok ok hv.1) hv.2)

theorem run_kind {env : GEnv} (ops : List Op) : ∀ {w : World}, WorldOk w → ValidFrom env w ops →
    ∀ u, u < w.next → (run env w ops).kind u = w.kind u := by
  induction ops with
  | nil => intro w _ _ u _; rfl
  | cons op ops ih =>
    intro w ok hv u hu
    have h := step_keeps (env := env) ok hv.1
    rw [run_cons, ih (step_ok ok hv.1) hv.2 u (lt_of_lt_of_le hu h.1), h.2.1 u hu]

theorem run_root {env : GEnv} (ops : List Op) : ∀ {w : World}, WorldOk w → ValidFrom env w ops →
    ∀ v ∈ w.deps 0, v ∈ (run env w ops).deps 0 := by
  induction ops with
  | nil => intro w _ _ v hv; exact hv
  | cons op ops ih =>
    intro w ok hv v hm
    exact ih (step_ok ok hv.1) hv.2 v ((step_keeps ok hv.1).2.2.2.1 v hm)

theorem run_defined {env : GEnv} (ops : List Op) : ∀ {w : World}, WorldOk w → ValidFrom env w ops →
    ∀ v, w.defined v = true → (run env w ops).defined v = true := by
  induction ops with
  | nil => intro w _ _ v hv; exact hv
  | cons op ops ih =>
    intro w ok hv v hm
    exact ih (step_ok ok hv.1) hv.2 v ((step_keeps ok hv.1).2.2.2.2 v hm)

/-- The call defines `v` by an expression that depends on `u` (or is `u`): then the fact that `u`
uses `v` makes a cycle, and `u` is made to use a new input of the same name instead. -/
def Op.Cuts (w : World) (u v : Ref) : Op → Prop
  | .define out e => out = v ∧ w.kind v = .explicitOut ∧ Reach w.deps e u
  | .defineResidual out e => out = v ∧ w.kind v = .implicitOut ∧ Reach w.deps e u
  | _ => False

/-- No call of the history cuts the dependency of `u` on `v`. -/
def NoCutFrom (env : GEnv) (u v : Ref) : World → List Op → Prop
  | _, [] => True
  | w, op :: ops => ¬ op.Cuts w u v ∧ NoCutFrom env u v (step env w op).1 ops

theorem step_keeps_edge {env : GEnv} {w : World} (ok : WorldOk w) (hac : AcyclicG w.deps) {op : Op}
    (hv : op.Valid w) {u v : Ref} (hc : ¬ op.Cuts w u v) (he : v ∈ w.deps u) :
    v ∈ (step env w op).1.deps u := by
  by_cases hr : op.Rewires v
  · have hu : u < w.next := by
      by_contra h
      rw [ok.fresh u (not_lt.1 h)] at he
      simp at he
    cases op with
    | define out e =>
      obtain rfl : out = v := hr
      unfold step
      simp only
      split
      · exact he
      · rename_i hk
        have hk' : w.kind out = .explicitOut := by simpa using hk
        split
        · exact he
        · split
          · exact he
          · split
            · exact (mem_addDep env.o w.deps out e u out).2 (Or.inl he)
            · rename_i g hg
              show out ∈ g u
              obtain ⟨_, _, _, _, hP⟩ := replaceLeafNodes_spec
                (show w.next ≠ out by have := hv.1.2; omega)
                (fun u => nodup_addDep env.o w.deps out e u (ok.nodup u))
                (show OM.addDep env.o w.deps out e w.next = [] by
                  rw [addDep_of_ne _ _ _ (show w.next ≠ out by have := hv.1.2; omega)]
                  exact ok.fresh _ le_rfl)
                ((ok.addDep (env := env) hv.1.2 hv.2 (by rw [hk']; decide)).finite out) hg
              rw [hP (fun x => Reach (OM.addDep env.o w.deps out e) out x ∨ x = w.next)
                (Or.inl Relation.ReflTransGen.refl) (Or.inr rfl)
                (Or.inl Relation.ReflTransGen.refl) ?_ u ?_]
              · exact (mem_addDep env.o w.deps out e u out).2 (Or.inl he)
              · rintro a (ha | rfl) x hx
                · exact Or.inl (ha.tail hx)
                · exfalso
                  have hx' : x ∈ OM.addDep env.o w.deps out e w.next := hx
                  rw [addDep_of_ne _ _ _ (show w.next ≠ out by have := hv.1.2; omega),
                    ok.fresh _ le_rfl] at hx'
                  simp at hx'
              · rintro (h | rfl)
                · rcases Relation.reflTransGen_iff_eq_or_transGen.1 h with h | h
                  · subst h
                    exact hac _ (Relation.TransGen.single he)
                  · rcases needs_addDep h with h | ⟨_, h⟩
                    · exact hac _ (h.tail he)
                    · exact hc ⟨rfl, hk', h⟩
                · exact absurd hu (lt_irrefl _)
    | defineResidual out e =>
      obtain rfl : out = v := hr
      unfold step
      simp only
      split
      · exact he
      · rename_i hk
        have hk' : w.kind out = .implicitOut := by simpa using hk
        split
        · exact he
        · split
          · exact he
          · split
            · exact he
            · rename_i g hg
              obtain ⟨_, _, _, _, hP⟩ := replaceLeafNodes_spec
                (show w.next ≠ out by have := hv.1.2; omega) ok.nodup (ok.fresh _ le_rfl)
                (ok.finite out) hg
              have hkey : out ∈ g u := by
                rw [hP (fun x => Reach w.deps e x ∨ x = w.next ∨ Reach w.deps out x)
                  (Or.inr (Or.inr Relation.ReflTransGen.refl)) (Or.inr (Or.inl rfl))
                  (Or.inl Relation.ReflTransGen.refl) ?_ u ?_]
                · exact he
                · rintro a (ha | rfl | ha) x hx
                  · exact Or.inl (ha.tail hx)
                  · rw [ok.fresh _ le_rfl] at hx; simp at hx
                  · exact Or.inr (Or.inr (ha.tail hx))
                · rintro (h | rfl | h)
                  · exact hc ⟨rfl, hk', h⟩
                  · exact absurd hu (lt_irrefl _)
                  · exact hac _ (Relation.TransGen.tail' h he)
              have hreg := (World.register_keeps (env := env)
                (w := { w.alloc .input (w.name out) with deps := g })
                (nm := (w.alloc .input (w.name out)).name e) (x := e)).2.2.2.2.2.2.1 u out hkey
              split
              · exact hreg
              · exact hreg
    | _ => exact hr.elim
  · exact (step_keeps ok hv).2.2.1 u v he hr

theorem run_keeps_edge {env : GEnv} {u v : Ref} (ops : List Op) : ∀ {w : World}, WorldOk w →
    AcyclicG w.deps → ValidFrom env w ops → SafeFrom env w ops → NoCutFrom env u v w ops →
    v ∈ w.deps u → v ∈ (run env w ops).deps u := by
  induction ops with
  | nil => intro w _ _ _ _ _ h; exact h
  | cons op ops ih =>
    intro w ok hac hv hs hc h
    exact ih (step_ok ok hv.1) (step_acyclic ok hac hv.1 hs.1) hv.2 hs.2 hc.2
      (step_keeps_edge ok hac hv.1 hc.1 h)

/-- Dependencies on anything but an output are never cut. -/
theorem noCutFrom_of_kind {env : GEnv} {u v : Ref} (ops : List Op) : ∀ {w : World}, WorldOk w →
    ValidFrom env w ops → v < w.next → w.kind v ≠ .explicitOut → w.kind v ≠ .implicitOut →
    NoCutFrom env u v w ops := by
  induction ops with
  | nil => intros; trivial
  | cons op ops ih =>
    intro w ok hv hlt h1 h2
    have h := step_keeps (env := env) ok hv.1
    refine ⟨?_, ih (step_ok ok hv.1) hv.2 (lt_of_lt_of_le hlt h.1) ?_ ?_⟩
    · intro hc
      cases op with
      | define out e => exact h1 hc.2.1
      | defineResidual out e => exact h2 hc.2.1
      | _ => exact hc
    · rw [h.2.1 v hlt]; exact h1
    · rw [h.2.1 v hlt]; exact h2

theorem acyclic_init (env : GEnv) : AcyclicG (World.init env).deps := by
  intro v hv
  obtain ⟨y, hy, _⟩ := Relation.TransGen.head'_iff.1 hv
  unfold Edge World.init at hy
  simp at hy

theorem outs_init (env : GEnv) : OutsOk (World.init env) := by
  intro u _ _ h
  simp only [World.init] at h
  split at h <;> cases h

/-! ## The outputs of the group -/

/-- The call makes the object `x` an output (or subsystem) of the group. -/
def Op.MakesOutput (env : GEnv) (w : World) (x : Ref) : Op → Prop
  | .createIndep _ => x = w.next
  | .createOutput _ => x = w.next
  | .addSubsystem _ => x = w.next
  | .registerOutput nm y => y = x ∧ (step env w (.registerOutput nm y)).2 = none
  | .defineResidual out e => e = x ∧ (step env w (.defineResidual out e)).2 = none
  | _ => False

theorem register_root {env : GEnv} {w : World} {nm : String} {y x : Ref} :
    x ∈ (w.register env nm y).1.deps 0 ↔
      x ∈ w.deps 0 ∨ (y = x ∧ (w.register env nm y).2 = none) := by
  unfold World.register
  split
  · simp
  · split
    · simp
    · show x ∈ OM.addDep env.o w.deps 0 y 0 ↔ _
      rw [mem_addDep]
      simp [eq_comm]

theorem step_root_iff {env : GEnv} {w : World} (ok : WorldOk w) {op : Op} (hv : op.Valid w)
    (x : Ref) : x ∈ (step env w op).1.deps 0 ↔ x ∈ w.deps 0 ∨ op.MakesOutput env w x := by
  have hpos := ok.pos
  have h0 : ∀ (g : Graph) (u d : Ref), u ≠ 0 → OM.addDep env.o g u d 0 = g 0 :=
    fun g u d hu => addDep_of_ne _ _ _ (Ne.symm hu)
  have hs : ∀ s, w.recent = some s → s ≠ 0 := fun s hr => (ok.recent s hr).1.ne'
  have hin : w.kind w.next = .indep → False ∨ True := fun _ => Or.inr trivial
  cases op with
  | declareInput nm =>
    unfold step
    cases hr : w.recent with
    | none => simp [Op.MakesOutput, World.alloc]
    | some s =>
      simp only [Op.MakesOutput, or_false]
      show x ∈ OM.addDep env.o w.deps w.next s 0 ↔ _
      rw [h0 _ _ _ hpos.ne']
  | createIndep nm =>
    have key : ∀ w' : World, w'.kind w.next = .indep → w'.deps 0 = w.deps 0 →
        (x ∈ (w'.register env nm w.next).1.deps 0 ↔ x ∈ w.deps 0 ∨ x = w.next) := by
      intro w' hk hd
      rw [register_root, hd]
      have hreg : (w'.register env nm w.next).2 = none := by
        unfold World.register
        rw [if_neg (by rw [hk]; decide), if_neg ?_]
        rw [hd]
        exact ok.no_edge_to_fresh 0
      rw [hreg]
      simp [eq_comm]
    unfold step
    cases hr : w.recent with
    | none => exact key _ (by simp [World.alloc]) rfl
    | some s =>
      exact key _ (by simp [World.addDep, World.alloc]) (h0 w.deps s w.next (hs s hr))
  | createOutput nm =>
    show x ∈ OM.addDep env.o w.deps 0 w.next 0 ↔ _
    rw [mem_addDep]
    simp [Op.MakesOutput]
  | createImplicit nm => simp [step, Op.MakesOutput, World.alloc]
  | combine args =>
    obtain ⟨_, _, _, _, _, _, _, _, h9⟩ := WorldOk.addDeps (env := env) args
      (ok.alloc .expr (env.autoName w.next)) (u := w.next) (Nat.lt_succ_self _)
      (by simp [World.alloc]) (fun d hd => ⟨(hv d hd).1, Nat.lt_succ_of_lt (hv d hd).2⟩)
    refine (h9 0 x).trans ?_
    simp only [Op.MakesOutput, or_false]
    constructor
    · rintro (h | ⟨h, _⟩)
      · exact h
      · exact absurd h hpos.ne
    · exact Or.inl
  | getItem x' =>
    unfold step
    simp only
    cases hd : w.decomp x' with
    | some d =>
      simp only [hd, Op.MakesOutput, or_false]
      show x ∈ OM.addDep env.o w.deps w.next d 0 ↔ _
      rw [h0 _ _ _ hpos.ne']
    | none =>
      simp only [Function.update_self, Op.MakesOutput, or_false]
      show x ∈ OM.addDep env.o (OM.addDep env.o w.deps w.next x') (w.next + 1) w.next 0 ↔ _
      rw [h0 _ _ _ (by omega), h0 _ _ _ hpos.ne']
  | registerOutput nm y => exact register_root
  | addSubsystem nm =>
    obtain ⟨_, _, _, _, _, _, _, _, h9⟩ := WorldOk.addDeps (env := env) (w.deps 0)
      (ok.alloc .subsystem nm) (u := w.next) (Nat.lt_succ_self _) (by simp [World.alloc])
      (fun d hd => ⟨(ok.range 0 d hd).1, Nat.lt_succ_of_lt (ok.range 0 d hd).2⟩)
    refine (mem_addDep env.o _ 0 w.next 0 x).trans ?_
    rw [h9 0 x]
    simp only [Op.MakesOutput]
    constructor
    · rintro ((h | ⟨h, _⟩) | ⟨_, h⟩)
      · exact Or.inl h
      · exact absurd h hpos.ne
      · exact Or.inr h
    · rintro (h | h)
      · exact Or.inl (Or.inl h)
      · exact Or.inr ⟨trivial, h⟩
  | define out e =>
    unfold step
    simp only [Op.MakesOutput, or_false]
    split
    · exact Iff.rfl
    · rename_i hk
      have hk' : w.kind out = .explicitOut := by simpa using hk
      split
      · exact Iff.rfl
      · split
        · exact Iff.rfl
        · split
          · show x ∈ OM.addDep env.o w.deps out e 0 ↔ _
            rw [h0 _ _ _ hv.1.1.ne']
          · rename_i g hg
            obtain ⟨_, _, _, _, hg0⟩ := define_spec ok hv.1 hv.2 hk' hg
            show x ∈ g 0 ↔ _
            rw [hg0]
  | setItem out e c =>
    unfold step
    simp only [Op.MakesOutput, or_false]
    split
    · exact Iff.rfl
    · cases c <;>
      · show x ∈ OM.addDep env.o w.deps out e 0 ↔ _
        rw [h0 _ _ _ hv.1.1.ne']
  | defineResidual out e =>
    have hm : Op.MakesOutput env w x (.defineResidual out e) ↔
      (e = x ∧ (step env w (.defineResidual out e)).2 = none) := Iff.rfl
    rw [hm]
    unfold step
    simp only
    split
    · simp
    · split
      · simp
      · split
        · simp
        · split
          · simp [World.alloc]
          · rename_i g hg
            obtain ⟨_, _, _, hg0⟩ := residual_spec ok hv.1 hv.2 hg
            have hr := register_root (env := env)
              (w := { w.alloc .input (w.name out) with deps := g })
              (nm := (w.alloc .input (w.name out)).name e) (y := e) (x := x)
            have hr' : ({ w.alloc .input (w.name out) with deps := g } : World).deps 0 = w.deps 0 := hg0
            rw [hr'] at hr
            split
            · rename_i err herr
              rw [hr, herr]
            · rename_i herr
              show x ∈ (World.register _ _ _ _).1.deps 0 ↔ _
              rw [hr, herr]

/-! ## Kinds of objects -/

theorem step_kind_root {env : GEnv} {w : World} {op : Op} (h : ∀ u, u ≠ 0 → w.kind u ≠ .root) :
    ∀ u, u ≠ 0 → (step env w op).1.kind u ≠ .root := by
  have halloc : ∀ (w' : World), (∀ u, u ≠ 0 → w'.kind u ≠ .root) → ∀ k nm, k ≠ Kind.root →
      ∀ u, u ≠ 0 → (w'.alloc k nm).kind u ≠ .root := by
    intro w' hw k nm hk u hu
    by_cases hn : u = w'.next
    · subst hn; simpa [World.alloc] using hk
    · simpa [World.alloc, Function.update_of_ne hn] using hw u hu
  have hfold : ∀ (u : Ref) (args : List Ref) (w' : World),
      (args.foldl (fun w' a => w'.addDep env u a) w').kind = w'.kind := by
    intro u args
    induction args with
    | nil => intro w'; rfl
    | cons a args ih => intro w'; rw [List.foldl_cons, ih]; rfl
  cases op with
  | declareInput nm =>
    unfold step; cases hr : w.recent <;> exact halloc w h .input nm (by decide)
  | createIndep nm =>
    unfold step
    cases hr : w.recent with
    | none => simp only; rw [World.register_keeps.2.1]; exact halloc w h .indep nm (by decide)
    | some s => simp only; rw [World.register_keeps.2.1]; exact halloc w h .indep nm (by decide)
  | createOutput nm => exact halloc w h .explicitOut nm (by decide)
  | createImplicit nm => exact halloc w h .implicitOut nm (by decide)
  | combine args =>
    show ∀ u, u ≠ 0 → (World.kind (List.foldl _ _ args)) u ≠ .root
    rw [hfold]
    exact halloc w h .expr _ (by decide)
  | getItem x =>
    unfold step
    simp only
    cases hd : w.decomp x with
    | some d => simp only [hd]; exact halloc w h .item (env.autoName w.next) (by decide)
    | none =>
      simp only [Function.update_self]
      exact halloc (w.alloc .decomp ("decompose_" ++ w.name x))
        (halloc w h .decomp _ (by decide)) .item (env.autoName (w.next + 1)) (by decide)
  | registerOutput nm x =>
    show ∀ u, u ≠ 0 → (World.register env w nm x).1.kind u ≠ .root
    rw [World.register_keeps.2.1]; exact h
  | addSubsystem nm =>
    show ∀ u, u ≠ 0 → (World.kind (List.foldl _ _ (w.deps 0))) u ≠ .root
    rw [hfold]
    exact halloc w h .subsystem nm (by decide)
  | define out e =>
    unfold step; simp only
    split
    · exact h
    · split
      · exact h
      · split
        · exact h
        · split <;> exact halloc w h .input (w.name out) (by decide)
  | setItem out e c =>
    unfold step; simp only
    split
    · exact h
    · cases c <;> exact h
  | defineResidual out e =>
    unfold step; simp only
    split
    · exact h
    · split
      · exact h
      · split
        · exact h
        · split
          · exact halloc w h .input (w.name out) (by decide)
          · split
            · rw [World.register_keeps.2.1]; exact halloc w h .input (w.name out) (by decide)
            · show ∀ u, u ≠ 0 → (World.register _ _ _ _).1.kind u ≠ .root
              rw [World.register_keeps.2.1]; exact halloc w h .input (w.name out) (by decide)

theorem run_kind_root {env : GEnv} (ops : List Op) : ∀ {w : World}, (∀ u, u ≠ 0 → w.kind u ≠ .root) →
    ∀ u, u ≠ 0 → (run env w ops).kind u ≠ .root := by
  induction ops with
  | nil => intro w h; exact h
  | cons op ops ih => intro w h; exact ih (step_kind_root h)

theorem final_kind_root (env : GEnv) (ops : List Op) (u : Ref) (hu : u ≠ 0) :
    (run env (World.init env) ops).kind u ≠ .root :=
  run_kind_root ops (fun u hu => by simp [World.init, hu]) u hu

/-- Some call of the history makes `x` an output of the group. -/
def MadeOutput (env : GEnv) (w : World) (x : Ref) (ops : List Op) : Prop :=
  ∃ a op b, ops = a ++ op :: b ∧ op.MakesOutput env (run env w a) x

theorem run_root_iff {env : GEnv} (x : Ref) (ops : List Op) : ∀ {w : World}, WorldOk w →
    ValidFrom env w ops →
    (x ∈ (run env w ops).deps 0 ↔ x ∈ w.deps 0 ∨ MadeOutput env w x ops) := by
  induction ops with
  | nil =>
    intro w _ _
    simp [run, MadeOutput]
  | cons op ops ih =>
    intro w ok hv
    rw [run_cons, ih (step_ok ok hv.1) hv.2, step_root_iff ok hv.1, or_assoc]
    refine or_congr_right ⟨?_, ?_⟩
    · rintro (h | ⟨a, op', b, rfl, h⟩)
      · exact ⟨[], op, ops, rfl, h⟩
      · exact ⟨op :: a, op', b, rfl, h⟩
    · rintro ⟨a, op', b, e, h⟩
      cases a with
      | nil =>
        simp only [List.nil_append, List.cons.injEq] at e
        obtain ⟨rfl, rfl⟩ := e
        exact Or.inl h
      | cons a1 a =>
        simp only [List.cons_append, List.cons.injEq] at e
        obtain ⟨rfl, rfl⟩ := e
        exact Or.inr ⟨a, op', b, rfl, h⟩

/-- Inputs are never outputs of the group. -/
theorem run_root_kind {env : GEnv} (ops : List Op) : ∀ {w : World}, WorldOk w →
    ValidFrom env w ops → (∀ x ∈ w.deps 0, w.kind x ≠ .input) →
    ∀ x ∈ (run env w ops).deps 0, (run env w ops).kind x ≠ .input := by
  induction ops with
  | nil => intro w _ _ h; exact h
  | cons op ops ih =>
    intro w ok hv h
    refine ih (step_ok ok hv.1) hv.2 ?_
    intro x hx
    have hk := step_keeps (env := env) ok hv.1
    rcases (step_root_iff ok hv.1 x).1 hx with h' | h'
    · rw [hk.2.1 x (ok.range 0 x h').2]; exact h x h'
    · cases op with
      | createIndep nm =>
        obtain rfl : x = w.next := h'
        unfold step
        simp only
        rw [World.register_keeps.2.1]
        cases hr : w.recent <;>
        · show Function.update w.kind w.next .indep w.next ≠ .input
          rw [Function.update_self]; decide
      | createOutput nm =>
        obtain rfl : x = w.next := h'
        simp [step, World.alloc, World.addDep]
      | addSubsystem nm =>
        obtain rfl : x = w.next := h'
        obtain ⟨_, _, h3, _⟩ := WorldOk.addDeps (env := env) (w.deps 0)
          (ok.alloc .subsystem nm) (u := w.next) (Nat.lt_succ_self _) (by simp [World.alloc])
          (fun d hd => ⟨(ok.range 0 d hd).1, Nat.lt_succ_of_lt (ok.range 0 d hd).2⟩)
        intro hc
        have := (congrFun h3 w.next).symm.trans hc
        simp [World.alloc] at this
      | registerOutput nm y =>
        obtain ⟨rfl, h2⟩ := h'
        rw [hk.2.1 y hv.1.2]
        intro hc
        have h3 : (World.register env w nm y).2 = none := h2
        unfold World.register at h3
        rw [if_pos hc] at h3
        cases h3
      | defineResidual out e =>
        obtain ⟨rfl, h2⟩ := h'
        rw [hk.2.1 e hv.1.2.2]
        intro hc
        unfold step at h2
        simp only at h2
        split at h2
        · cases h2
        · split at h2
          · cases h2
          · split at h2
            · cases h2
            · split at h2
              · cases h2
              · rename_i g hg
                have hlt : e ≠ w.next := by have := hv.1.2.2; omega
                have : (World.register env { w.alloc .input (w.name out) with deps := g }
                    ((w.alloc .input (w.name out)).name e) e).2 = some .typeError := by
                  unfold World.register
                  rw [if_pos]
                  simp [World.alloc, Function.update_of_ne hlt, hc]
                rw [this] at h2
                cases h2
      | _ => exact h'.elim

end OM
