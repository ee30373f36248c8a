import Verif.Lemmas.ImplProgram
import Verif.Props.Collect
import Verif.Props.Program

/-! # The group of an implicit component after the user's part of `setup` -/

namespace OM
open Spec

/-- The assumptions on the single calls, for all calls. -/
def FineFrom (genv : GEnv) : World → List ImplStmt → Prop
  | _, [] => True
  | w, st :: prog => st.Fine genv w ∧ FineFrom genv (step genv w st.op).1 prog

/-- No output is defined by an expression that depends on it, for the calls made on a group with state `w`. -/
def NoFeedbackFrom (genv : GEnv) (w : World) (l : List Op) : Prop :=
  ∀ a out e b, l = a ++ .define out e :: b → ¬ Reach (run genv w a).deps e out

section
variable {genv : GEnv}

theorem noFeedbackFrom_append {w : World} {a b : List Op} (h : NoFeedbackFrom genv w (a ++ b)) :
    NoFeedbackFrom genv (run genv w a) b := by
  intro c out e d hb
  have := h (a ++ c) out e d (by rw [hb]; simp)
  rwa [run_append] at this

theorem wires_stmt {P : Ref → Prop} {wi wt : World} (h : Sim P wi wt) (k : Wires) {st : Stmt}
    (hres : (step genv wt st.op).2 = (step genv wi st.op).2)
    (hs : (step genv wt st.op).1.next = (step genv wi st.op).1.next) :
    k.step genv wt st.op = k.step genv wi st.op := by
  cases st with
  | declareInput n s => rfl
  | createIndep n s => rfl
  | createOutput n s => rfl
  | expr c =>
    show Wires.step genv wt k (.combine c.refs) = Wires.step genv wi k (.combine c.refs)
    simp only [Wires.step, h.next]
  | registerOutput n x => rfl
  | define out e =>
    have hres : (OM.step genv wt (.define out e)).2 = (OM.step genv wi (.define out e)).2 := hres
    show Wires.step genv wt k (.define out e) = Wires.step genv wi k (.define out e)
    rw [Wires.step_define, Wires.step_define, hres]
  | getItem x key =>
    have hs : (OM.step genv wt (.getItem x)).1.next = (OM.step genv wi (.getItem x)).1.next := hs
    show Wires.step genv wt k (.getItem x) = Wires.step genv wi k (.getItem x)
    simp only [Wires.step, hs, h.decomp, h.next]
  | setItem out key e =>
    show Wires.step genv wt k (.setItem out e none) = Wires.step genv wi k (.setItem out e none)
    rw [Wires.step_setItem, Wires.step_setItem, h.name]
    simp only [h.kind_eq (u := out) (k := .explicitOut) (by decide) (by decide)]
  | addSubsystem n => rfl

theorem layout_stmt {P : Ref → Prop} {wi wt : World} (h : Sim P wi wt) (name : Ref → String) (l : Layout) {st : Stmt}
    (hres : (step genv wt st.op).2 = (step genv wi st.op).2)
    (hs : (step genv wt st.op).1.next = (step genv wi st.op).1.next) :
    l.step genv name wt st = l.step genv name wi st := by
  cases st with
  | declareInput n s => simp only [Layout.step, h.next]
  | createIndep n s => simp only [Layout.step, h.next]
  | createOutput n s => simp only [Layout.step, h.next]
  | expr c => simp only [Layout.step, h.next]
  | registerOutput n x => rfl
  | define out e =>
    have hres : (OM.step genv wt (.define out e)).2 = (OM.step genv wi (.define out e)).2 := hres
    simp only [Layout.step, hres]
  | getItem x key =>
    have hs : (OM.step genv wt (.getItem x)).1.next = (OM.step genv wi (.getItem x)).1.next := hs
    simp only [Layout.step, hs]
  | setItem out key e =>
    simp only [Layout.step, h.name, ne_eq, h.kind_eq (u := out) (k := .explicitOut) (by decide) (by decide)]
  | addSubsystem n => rfl

theorem stmt_kinds {w : World} {st : Stmt} {u : Ref} (h : (step genv w st.op).1.kind u = .implicitOut) :
    w.kind u = .implicitOut := by
  rcases step_newKinds (env := genv) (w := w) (op := st.op) u with h' | h'
  · exact h'.symm.trans h
  · rw [h] at h'
    cases st <;> simp [Stmt.op, Op.newKinds] at h'

/-- The two groups, what they remember, and their components. -/
theorem sim_run (name : Ref → String) (prog : List ImplStmt) : ∀ {P : Ref → Prop} {wi wt : World} {sh : Ref → List Nat}
    (k : Wires), Sim P wi wt → WorldOk wi → WorldOk wt → AcyclicG wi.deps → AcyclicG wt.deps →
    (∀ u, wi.next ≤ u → wi.kind u ≠ .implicitOut) →
    FineFrom genv wi prog → ValidFrom genv wi (implOps prog) → SafeFrom genv wi (implOps prog) →
    ValidFrom genv wt (ops (explicitFrom genv wi sh prog)) → SafeFrom genv wt (ops (explicitFrom genv wi sh prog)) →
    NoFeedbackFrom genv wt (ops (explicitFrom genv wi sh prog)) →
    (∃ P', Sim P' (run genv wi (implOps prog)) (run genv wt (ops (explicitFrom genv wi sh prog)))) ∧
    Wires.run genv wt k (ops (explicitFrom genv wi sh prog)) = Wires.run genv wi k (implOps prog) ∧
    ∀ l : Layout, (∀ u < wi.next, wi.kind u = .implicitOut → sh u = l.shape u) →
      Layout.run genv name wt l (explicitFrom genv wi sh prog) = Layout.implRun genv name wi l prog := by
  induction prog with
  | nil =>
    intro P wi wt sh k h _ _ _ _ _ _ _ _ _ _ _
    exact ⟨⟨P, h⟩, rfl, fun _ _ => rfl⟩
  | cons st prog ih =>
    intro P wi wt sh k h oki okt aci act hun hfine hvi hsi hvt hst hf
    cases st with
    | stmt st =>
      change ValidFrom genv wt (st.op :: ops (explicitFrom genv (step genv wi st.op).1 sh prog)) at hvt
      change SafeFrom genv wt (st.op :: ops (explicitFrom genv (step genv wi st.op).1 sh prog)) at hst
      change NoFeedbackFrom genv wt (st.op :: ops (explicitFrom genv (step genv wi st.op).1 sh prog)) at hf
      change ValidFrom genv wi (st.op :: implOps prog) at hvi
      change SafeFrom genv wi (st.op :: implOps prog) at hsi
      obtain ⟨h1, h2⟩ := h.stmt (genv := genv) oki okt hvi.1 aci act hsi.1 hst.1 hfine.1
        (fun out e he => hf [] out e _ (by rw [he]; rfl))
      have hw := wires_stmt h k h1 h2.next
      obtain ⟨i1, i2, i3⟩ := ih (sh := sh) (k.step genv wi st.op) h2 (step_ok oki hvi.1) (step_ok okt hvt.1)
        (step_acyclic oki aci hvi.1 hsi.1) (step_acyclic okt act hvt.1 hst.1)
        (fun u hu hk => hun u ((step_keeps oki hvi.1).1.trans hu) (stmt_kinds hk)) hfine.2 hvi.2 hsi.2 hvt.2 hst.2
        (noFeedbackFrom_append (a := [st.op]) hf)
      refine ⟨i1, ?_, ?_⟩
      · show Wires.run genv _ (k.step genv wt st.op) _ = Wires.run genv _ (k.step genv wi st.op) _
        rw [hw]
        exact i2
      · intro l hsh
        have hl := layout_stmt h name l h1 h2.next
        have hstep : Layout.implStep genv name wi l (.stmt st) = l.step genv name wi st := rfl
        show Layout.run genv name wt l (st :: _) = Layout.implRun genv name wi l (.stmt st :: prog)
        rw [Layout.run, Layout.implRun, hl, hstep]
        cases hls : l.step genv name wi st with
        | error er => rfl
        | ok l' =>
          refine i3 l' fun u hu hk => ?_
          have hk' := stmt_kinds hk
          have hlt : u < wi.next := by
            by_contra hge
            exact hun u (not_lt.1 hge) hk'
          rw [(layout_step_old hls hlt).shape]
          exact hsh u hlt hk'
    | createImplicit n s =>
      change ValidFrom genv wt (.declareInput n :: ops (explicitFrom genv (step genv wi (.createImplicit n)).1
        (Function.update sh wi.next s) prog)) at hvt
      change SafeFrom genv wt (.declareInput n :: ops (explicitFrom genv (step genv wi (.createImplicit n)).1
        (Function.update sh wi.next s) prog)) at hst
      change NoFeedbackFrom genv wt (.declareInput n :: ops (explicitFrom genv (step genv wi (.createImplicit n)).1
        (Function.update sh wi.next s) prog)) at hf
      change ValidFrom genv wi (.createImplicit n :: implOps prog) at hvi
      change SafeFrom genv wi (.createImplicit n :: implOps prog) at hsi
      have h2 : Sim _ (step genv wi (.createImplicit n)).1 (step genv wt (.declareInput n)).1 :=
        h.newOut (genv := genv) oki okt (k := .implicitOut) n trivial (Or.inl rfl)
      have hkind : (step genv wi (.createImplicit n)).1.kind =
        Function.update (β := fun _ => Kind) wi.kind wi.next .implicitOut := rfl
      have hnext : (step genv wi (.createImplicit n)).1.next = wi.next + 1 := rfl
      obtain ⟨i1, i2, i3⟩ := ih (sh := Function.update sh wi.next s) k h2 (step_ok oki hvi.1) (step_ok okt hvt.1)
        (step_acyclic oki aci hvi.1 hsi.1) (step_acyclic okt act hvt.1 hst.1)
        (fun u hu hk => by
          rw [hnext] at hu
          rw [hkind, Function.update_of_ne (by omega)] at hk
          exact hun u (by omega) hk) hfine.2 hvi.2 hsi.2 hvt.2 hst.2
        (noFeedbackFrom_append (a := [.declareInput n]) hf)
      refine ⟨i1, i2, ?_⟩
      intro l hsh
      have := i3 { l with
        shape := Function.update l.shape wi.next s, valShape := Function.update l.valShape wi.next s } (by
          intro u hu hk
          by_cases hun' : u = wi.next
          · subst hun'
            show Function.update (β := fun _ => List Nat) _ _ _ _ = Function.update (β := fun _ => List Nat) _ _ _ _
            rw [Function.update_self, Function.update_self]
          · rw [hkind, Function.update_of_ne hun'] at hk
            rw [hnext] at hu
            show Function.update (β := fun _ => List Nat) _ _ _ _ = Function.update (β := fun _ => List Nat) _ _ _ _
            rw [Function.update_of_ne hun', Function.update_of_ne hun']
            exact hsh u (by omega) hk)
      show Layout.run genv name wt l (.declareInput n s :: _) = Layout.implRun genv name wi l (.createImplicit n s :: prog)
      rw [Layout.run, Layout.implRun]
      simp only [Layout.step, Layout.implStep, h.next]
      exact this
    | defineResidual out e =>
      change ValidFrom genv wt (.declareInput (wi.name out) :: .registerOutput (wi.name e) e ::
        ops (explicitFrom genv (step genv wi (.defineResidual out e)).1 sh prog)) at hvt
      change SafeFrom genv wt (.declareInput (wi.name out) :: .registerOutput (wi.name e) e ::
        ops (explicitFrom genv (step genv wi (.defineResidual out e)).1 sh prog)) at hst
      change NoFeedbackFrom genv wt ([.declareInput (wi.name out), .registerOutput (wi.name e) e] ++
        ops (explicitFrom genv (step genv wi (.defineResidual out e)).1 sh prog)) at hf
      change ValidFrom genv wi (.defineResidual out e :: implOps prog) at hvi
      change SafeFrom genv wi (.defineResidual out e :: implOps prog) at hsi
      have h2 := h.defineResidual (genv := genv) oki okt hvi.1 hfine.1
      obtain ⟨j1, j2, j3, j4, j5, j6, j7, j8, j9, j10, j11⟩ := residual_fields oki hvi.1 hfine.1.2
      have okt1 := step_ok (env := genv) okt hvt.1
      have act1 := step_acyclic okt act hvt.1 hst.1
      obtain ⟨i1, i2, i3⟩ := ih (sh := sh) k h2 (step_ok oki hvi.1) (step_ok okt1 hvt.2.1)
        (step_acyclic oki aci hvi.1 hsi.1) (step_acyclic okt1 act1 hvt.2.1 hst.2.1)
        (fun u hu hk => by
          rw [j5] at hu
          rw [j6, Function.update_of_ne (by omega)] at hk
          exact hun u (by omega) hk) hfine.2 hvi.2 hsi.2 hvt.2.2 hst.2.2
        (noFeedbackFrom_append hf)
      refine ⟨i1, i2, ?_⟩
      intro l hsh
      have := i3 { l with
        shape := Function.update l.shape wi.next (l.shape out)
        valShape := Function.update l.valShape wi.next (l.shape out) } (by
          intro u hu hk
          by_cases hun' : u = wi.next
          · subst hun'
            rw [j6, Function.update_self] at hk
            cases hk
          · rw [j6, Function.update_of_ne hun'] at hk
            rw [j5] at hu
            show _ = Function.update (β := fun _ => List Nat) _ _ _ _
            rw [Function.update_of_ne hun']
            exact hsh u (by omega) hk)
      show Layout.run genv name wt l (.declareInput (wi.name out) (sh out) :: .registerOutput (wi.name e) e :: _) =
        Layout.implRun genv name wi l (.defineResidual out e :: prog)
      rw [Layout.run, Layout.implRun]
      simp only [Layout.step, Layout.implStep, h.next]
      rw [Layout.run]
      simp only [Layout.step]
      rw [hsh out hvi.1.1.2 j1]
      exact this

end

/-! ## The residuals -/

/-- What is known about the residuals found so far. -/
structure ResInv (w : World) (res : List (Ref × String)) : Prop where
  mem : ∀ r ∈ res, r.1 ∈ w.deps 0 ∧ w.kind r.1 ≠ .input ∧ w.kind r.1 ≠ .implicitOut ∧
    ∃ out < w.next, w.kind out = .implicitOut ∧ w.defined out = true ∧ w.name out = r.2
  nodup : (res.map Prod.fst).Nodup
  defined : ∀ u < w.next, w.kind u = .implicitOut → w.defined u = true → ∃ e, (e, w.name u) ∈ res

section
variable {genv : GEnv}

theorem stmt_defined {w : World} {st : Stmt} {u : Ref} (hv : st.op.Valid w)
    (hu : w.kind u ≠ .explicitOut ∨ w.next ≤ u) :
    (step genv w st.op).1.defined u = w.defined u := by
  have hfold : ∀ (x : Ref) (args : List Ref) (w' : World),
      (args.foldl (fun w' a => w'.addDep genv x a) w').defined = w'.defined := by
    intro x args
    induction args with
    | nil => intro w'; rfl
    | cons a args ih => intro w'; rw [List.foldl_cons, ih]; rfl
  have hreg : ∀ (w' : World) nm x, (w'.register genv nm x).1.defined = w'.defined := by
    intro w' nm x
    unfold World.register
    split
    · rfl
    · split <;> rfl
  cases st with
  | declareInput n s => show (step genv w (.declareInput n)).1.defined u = _; unfold step; cases hr : w.recent <;> rfl
  | createIndep n s =>
    show (step genv w (.createIndep n)).1.defined u = _
    unfold step
    simp only
    rw [hreg]
    cases hr : w.recent <;> rfl
  | createOutput n s => rfl
  | expr c =>
    show (World.defined (List.foldl _ _ c.refs)) u = _
    rw [hfold]; rfl
  | registerOutput n x => exact congrFun (hreg w n x) u
  | define out e =>
    show (step genv w (.define out e)).1.defined u = _
    unfold step
    simp only
    split
    · rfl
    rename_i c1
    have hne : u ≠ out := by
      rintro rfl
      exact hu.elim c1 fun h => absurd hv.1.2 (not_lt.2 h)
    split
    · rfl
    split
    · rfl
    split <;> exact Function.update_of_ne hne ..
  | getItem x key =>
    show (step genv w (.getItem x)).1.defined u = _
    unfold step
    simp only
    cases hd : w.decomp x with
    | some d => simp only [hd]; rfl
    | none => simp only [Function.update_self]; rfl
  | setItem out key e =>
    show (step genv w (.setItem out e none)).1.defined u = _
    unfold step
    simp only
    split
    · rfl
    rename_i c1
    have hne : u ≠ out := by
      rintro rfl
      exact hu.elim c1 fun h => absurd hv.1.2 (not_lt.2 h)
    exact Function.update_of_ne hne ..
  | addSubsystem n =>
    show (World.defined (List.foldl _ _ (w.deps 0))) u = _
    rw [hfold]; rfl

theorem ResInv.old {w w' : World} {res : List (Ref × String)} (h : ResInv w res) (ok : WorldOk w) (hn : w.next ≤ w'.next)
    (hk : ∀ u < w.next, w'.kind u = w.kind u) (h0 : ∀ v ∈ w.deps 0, v ∈ w'.deps 0)
    (hd : ∀ u, w.defined u = true → w'.defined u = true)
    (hnm : ∀ u < w.next, w.kind u = .implicitOut → w'.name u = w.name u) {r : Ref × String} (hr : r ∈ res) :
    r.1 ∈ w'.deps 0 ∧ w'.kind r.1 ≠ .input ∧ w'.kind r.1 ≠ .implicitOut ∧
      ∃ out < w'.next, w'.kind out = .implicitOut ∧ w'.defined out = true ∧ w'.name out = r.2 := by
  obtain ⟨a1, a2, a3, out, a4, a5, a6, a7⟩ := h.mem r hr
  have hlt := (ok.range 0 _ a1).2
  rw [hk _ hlt]
  exact ⟨h0 _ a1, a2, a3, out, by omega, (hk out a4).trans a5, hd out a6, (hnm out a4 a5).trans a7⟩

theorem ImplStmt.Fine.name {w : World} {st : ImplStmt} (hfine : st.Fine genv w) {u : Ref} (hu : u < w.next)
    (hk : w.kind u = .implicitOut) : (step genv w st.op).1.name u = w.name u := by
  by_contra hne
  obtain ⟨nm, h1, _⟩ := step_name hu hne
  cases st with
  | stmt st =>
    cases st <;> cases h1
    exact hfine hk
  | createImplicit n s => cases h1
  | defineResidual out e => cases h1

/-- The residual of one call. -/
def newResidual (genv : GEnv) (w : World) : ImplStmt → List (Ref × String)
  | .defineResidual out e => if (step genv w (.defineResidual out e)).2 = none then [(e, w.name out)] else []
  | _ => []

theorem resInv_run (prog : List ImplStmt) : ∀ {w : World} {res : List (Ref × String)}, WorldOk w →
    (∀ u, w.next ≤ u → w.kind u ≠ .implicitOut ∧ w.defined u = false) → FineFrom genv w prog →
    ValidFrom genv w (implOps prog) →
    ResInv w res → ResInv (run genv w (implOps prog)) (res ++ residualsFrom genv w prog) := by
  induction prog with
  | nil => intro w res _ _ _ _ h; rw [residualsFrom, List.append_nil]; exact h
  | cons st prog ih =>
    intro w res ok hun hfine hv h
    change ValidFrom genv w (st.op :: implOps prog) at hv
    have hk := step_keeps (env := genv) ok hv.1
    have old : ∀ r ∈ res, _ := fun r hr => h.old ok hk.1 hk.2.1 hk.2.2.2.1 hk.2.2.2.2
      (fun u hu hki => hfine.1.name hu hki) hr
    have hcons : residualsFrom genv w (st :: prog) = newResidual genv w st ++ residualsFrom genv (step genv w st.op).1 prog := by
      cases st <;> rfl
    have goal : ResInv (step genv w st.op).1 (res ++ newResidual genv w st) ∧
        (∀ u, (step genv w st.op).1.next ≤ u →
          (step genv w st.op).1.kind u ≠ .implicitOut ∧ (step genv w st.op).1.defined u = false) := by
      cases st with
      | stmt st =>
        have hnew : ∀ u, w.next ≤ u → (step genv w st.op).1.kind u ≠ .implicitOut :=
          fun u hu hki => (hun u hu).1 (stmt_kinds hki)
        have hdef : ∀ u, w.next ≤ u → (step genv w st.op).1.defined u = false :=
          fun u hu => (stmt_defined hv.1 (Or.inr hu)).trans (hun u hu).2
        refine ⟨⟨by simpa [newResidual] using old, by simpa [newResidual] using h.nodup, ?_⟩, fun u hu => ⟨hnew u (hk.1.trans hu), hdef u (hk.1.trans hu)⟩⟩
        intro u hu hki hd
        have hki' := stmt_kinds hki
        have hlt : u < w.next := by
          by_contra hge
          exact (hun u (not_lt.1 hge)).1 hki'
        change (step genv w st.op).1.defined u = true at hd
        rw [stmt_defined hv.1 (Or.inl (by rw [hki']; decide))] at hd
        obtain ⟨e, he⟩ := h.defined u hlt hki' hd
        refine ⟨e, ?_⟩
        rw [hfine.1.name hlt hki']
        simpa [newResidual] using he
      | createImplicit n s =>
        have hkind : (step genv w (.createImplicit n)).1.kind =
          Function.update (β := fun _ => Kind) w.kind w.next .implicitOut := rfl
        have hnext : (step genv w (.createImplicit n)).1.next = w.next + 1 := rfl
        refine ⟨⟨by simpa [newResidual] using old, by simpa [newResidual] using h.nodup, ?_⟩, ?_⟩
        · intro u hu hki hd
          change w.defined u = true at hd
          have hlt : u < w.next := by
            by_contra hge
            rw [(hun u (not_lt.1 hge)).2] at hd
            cases hd
          change (step genv w (.createImplicit n)).1.kind u = _ at hki
          rw [hkind, Function.update_of_ne (by omega)] at hki
          obtain ⟨e, he⟩ := h.defined u hlt hki hd
          refine ⟨e, ?_⟩
          rw [hfine.1.name hlt hki]
          simpa [newResidual] using he
        · intro u hu
          change w.next + 1 ≤ u at hu
          refine ⟨?_, (hun u (by omega)).2⟩
          show Function.update (β := fun _ => Kind) w.kind w.next .implicitOut u ≠ _
          rw [Function.update_of_ne (by omega)]
          exact (hun u (by omega)).1
      | defineResidual out e =>
        obtain ⟨j1, j2, j3, j4, j5, j6, j7, j8, j9, j10, j11⟩ := residual_fields ok hv.1 hfine.1.2
        have hres : (step genv w (.defineResidual out e)).2 = none := hfine.1.2
        obtain ⟨⟨_, holt⟩, _, helt⟩ := (show (Op.defineResidual out e).Valid w from hv.1)
        change (∀ r ∈ res, r.1 ∈ (step genv w (.defineResidual out e)).1.deps 0 ∧ _) at old
        obtain ⟨_, _, _, _, d5, _⟩ := c63_residual_partial ok hv.1 hres
        have hnm := fun u hu hki => ImplStmt.Fine.name hfine.1 (u := u) hu hki
        change ∀ u, u < w.next → w.kind u = .implicitOut → (step genv w (.defineResidual out e)).1.name u = w.name u at hnm
        show ResInv (step genv w (.defineResidual out e)).1 (res ++
          if (step genv w (.defineResidual out e)).2 = none then [(e, w.name out)] else []) ∧
          ∀ u, (step genv w (.defineResidual out e)).1.next ≤ u → (step genv w (.defineResidual out e)).1.kind u ≠ _ ∧ _
        rw [if_pos hres]
        refine ⟨⟨?_, ?_, ?_⟩, ?_⟩
        · intro r hr
          rcases List.mem_append.1 hr with hr | hr
          · exact old r hr
          · rw [List.mem_singleton] at hr
            subst hr
            refine ⟨(d5 e).2 (Or.inr rfl), ?_, ?_, out, ?_, ?_, ?_, hnm out holt j1⟩
            · rw [j6, Function.update_of_ne (by omega)]; exact j3
            · rw [j6, Function.update_of_ne (by omega)]; exact hfine.1.1
            · rw [j5]; omega
            · rw [j6, Function.update_of_ne (by omega)]; exact j1
            · rw [j8, Function.update_self]
        · rw [List.map_append, List.nodup_append]
          refine ⟨h.nodup, by simp, ?_⟩
          intro a ha b hb hab
          obtain ⟨r, hr, rfl⟩ := List.mem_map.1 ha
          simp only [List.map_cons, List.map_nil, List.mem_singleton] at hb
          exact j4 (by rw [← hb, ← hab]; exact (h.mem r hr).1)
        · intro u hu hki hd
          by_cases huo : u = out
          · subst huo
            exact ⟨e, by rw [hnm u holt j1]; simp⟩
          · have hne : u ≠ w.next := by
              rintro rfl
              rw [j6, Function.update_self] at hki; cases hki
            rw [j5] at hu
            have hlt : u < w.next := by omega
            rw [j6, Function.update_of_ne hne] at hki
            rw [j8, Function.update_of_ne huo] at hd
            obtain ⟨e', he'⟩ := h.defined u hlt hki hd
            exact ⟨e', by rw [hnm u hlt hki]; simp [he']⟩
        · intro u hu
          rw [j5] at hu
          refine ⟨?_, ?_⟩
          · rw [j6, Function.update_of_ne (by omega)]; exact (hun u (by omega)).1
          · refine (congrFun j8 u).trans ?_
            rw [Function.update_of_ne (by omega)]; exact (hun u (by omega)).2
    have := ih (step_ok ok hv.1) goal.2 hfine.2 hv.2 goal.1
    rw [List.append_assoc, ← hcons] at this
    exact this

end

/-! ## Only residuals are left as outputs -/

section
variable {env : SetupEnv} {w : World} {comps : List Ref}

/-- What `setup` adds for the group, from any state. -/
theorem setup_comps (wf : WellFormed env (fun u => w.kind u == .indep) 0 w.deps) (hc : setupGroup env w = .ok comps) :
    comps.Nodup ∧ (∀ u, u ∈ comps ↔ Needs w.deps 0 u ∧ w.built u = true) ∧
    (∀ u v, Needs w.deps 0 u → Needs w.deps u v → w.built u = true → w.built v = true → Before comps v u) ∧
    ∀ u, Needs w.deps 0 u → ¬ w.undefinedOut u := by
  obtain ⟨l, g1, h1, h2, h3, h4, h5⟩ := execOrder_ok wf
  have hs : setupGroup env w = buildAll w l := by
    unfold setupGroup
    unfold execOrder at h1
    cases hs : sortExpressions env (fun u => w.kind u == .indep) 0 (GState.fresh w.deps) with
    | error e => rw [hs] at h1; cases h1
    | ok r =>
      rw [hs] at h1
      simp only [Except.map, Except.ok.injEq] at h1
      simp only [h1]
  rw [hs] at hc
  by_cases hd : ∃ u ∈ l, w.undefinedOut u
  · rw [buildAll_error l hd] at hc; cases hc
  · rw [buildAll_ok l (by simpa using hd)] at hc
    cases hc
    refine ⟨h2.filter _, fun u => by rw [List.mem_filter, h3], ?_, fun u hu hc => hd ⟨u, (h3 u).2 hu, hc⟩⟩
    intro u v hu hv bu bv
    exact before_filter _ (h5 u v ((h3 u).2 hu)
      (needs_mono (fun a b hab => Relation.TransGen.single ((h4 a b).2 (Or.inl hab))) hv)) bv bu

variable {res : List (Ref × String)}

theorem remove_deps {u : Ref} (hu : u ≠ 0) : (w.removeNonresiduals res).deps u = w.deps u :=
  Function.update_of_ne hu ..

theorem remove_root (u : Ref) : u ∈ (w.removeNonresiduals res).deps 0 ↔ u ∈ w.deps 0 ∧ u ∈ res.map Prod.fst := by
  have : (w.removeNonresiduals res).deps 0 = (w.deps 0).filter fun x => x ∈ res.map Prod.fst := by
    simp only [World.removeNonresiduals, Function.update_self]
  rw [this, List.mem_filter]
  simp

theorem remove_edge {a b : Ref} (h : Edge (w.removeNonresiduals res).deps a b) : Edge w.deps a b := by
  unfold Edge at h ⊢
  by_cases ha : a = 0
  · subst ha
    exact ((remove_root b).1 h).1
  · rwa [remove_deps ha] at h

theorem remove_needs {a b : Ref} (h : Needs (w.removeNonresiduals res).deps a b) : Needs w.deps a b :=
  needs_mono (fun _ _ h => .single (remove_edge h)) h

theorem remove_needs' (ok : WorldOk w) {a b : Ref} (ha : a ≠ 0) (h : Needs w.deps a b) :
    Needs (w.removeNonresiduals res).deps a b := by
  induction h with
  | single h =>
    refine .single ?_
    unfold Edge at h ⊢
    rwa [remove_deps ha]
  | tail h1 h2 ih =>
    refine ih.tail ?_
    obtain ⟨c, _, hc⟩ := Relation.TransGen.tail'_iff.1 h1
    have := (ok.range _ _ hc).1
    unfold Edge at h2 ⊢
    rwa [remove_deps (by omega)]

theorem remove_wellFormed {genv : GEnv} {ops : List Op} (h : GroupOk genv env ops) (res : List (Ref × String)) :
    WellFormed env (fun u => ((final genv ops).removeNonresiduals res).kind u == .indep) 0
      ((final genv ops).removeNonresiduals res).deps := by
  have ok := h.ok
  have e0 : ((final genv ops).removeNonresiduals res).deps 0 =
      ((final genv ops).deps 0).filter fun x => x ∈ res.map Prod.fst := by
    simp only [World.removeNonresiduals, Function.update_self]
  refine wellFormed_of_order (List.range (final genv ops).next) ?_ (by simpa using h.size) ?_ ?_ ?_ ?_
  · intro v hv
    rcases Relation.ReflTransGen.cases_tail hv with rfl | ⟨c, _, hc⟩
    · simpa using ok.pos
    · simpa using (ok.range c v (remove_edge hc)).2
  · intro v _ hv
    exact h.acyclic v (remove_needs hv)
  · intro u hu
    have hu' := remove_needs hu
    obtain ⟨r, hr, hs⟩ := h.order u hu'
    have h0 : u ≠ 0 := fun e => h.acyclic 0 (e ▸ hu')
    refine ⟨r, fun l hl h' => hr l hl fun w hw => ?_, fun m hm => ?_⟩
    · obtain ⟨h1, c, hc, h2⟩ := h' w hw
      exact ⟨remove_edge h1, c, remove_edge hc, remove_needs h2⟩
    · rw [remove_deps h0]
      refine hs m (hm.trans ?_)
      rw [e0]
      exact (List.filter_sublist.filter _).length_le
  · intro u _
    by_cases h0 : u = 0
    · subst h0
      rw [e0]
      exact (ok.nodup 0).filter _
    · rw [remove_deps h0]; exact ok.nodup u
  · intro i hi hk'
    have hi' := remove_needs hi
    rw [remove_deps (by rintro rfl; exact h.acyclic 0 hi')]
    exact ok.indep i (eq_of_beq hk')

end

/-- Without feedback, every input that something depends on was declared by the user. -/
theorem inputs_returned {genv : GEnv} {l : List Op} (hv : ValidFrom genv (World.init genv) l)
    (hs : SafeFrom genv (World.init genv) l) (hu : UsesReturned genv l) (hf : NoFeedback genv l) {u v : Ref}
    (h : v ∈ (final genv l).deps u) (hk : (final genv l).kind v = .input) : Returned genv l v := by
  induction l using List.reverseRecOn generalizing u with
  | nil => simp [final, run, World.init] at h
  | append_singleton a op ih =>
    have hva := (validFrom_append genv a _ _).1 hv
    have hsa := (safeFrom_append genv a _ _).1 hs
    have ok : WorldOk (final genv a) := run_ok a (worldOk_init genv) hva.1
    have ac := run_acyclic a (worldOk_init genv) (acyclic_init genv) hva.1 hsa.1
    have old : ∀ {x}, v ∈ (final genv a).deps x → Returned genv (a ++ [op]) v := fun {x} hx =>
      (ih hva.1 hsa.1 hu.left hf.left hx ((kind_at hv (ok.range x v hx).2).symm.trans hk)).mono
    have used : v ∈ op.uses → Returned genv (a ++ [op]) v := fun hm => (hu a op [] rfl v hm).mono
    rw [final_snoc] at h hk
    by_cases hd : ∃ out e, op = .define out e
    · obtain ⟨out, e, rfl⟩ := hd
      by_cases hn : (step genv (final genv a) (.define out e)).2 = none
      · rcases (define_deps ok hva.2.1 hn ac (hf a out e [] rfl) u v).1 h with h | ⟨_, rfl⟩
        · exact old h
        · exact used (by simp [Op.uses])
      · rw [(step_define_error hn hsa.2.1).1] at h
        exact old h
    rcases step_links_only hva.1 hva.2.1 hsa.2.1 h with h | h | h
    · exact old h
    · cases op with
      | declareInput nm =>
        obtain ⟨_, h⟩ := h
        have h1 := ok.recent v ((recent_iff genv a v).2 h)
        rw [(step_keeps ok hva.2.1).2.1 v h1.2.1, h1.2.2] at hk
        cases hk
      | createIndep nm =>
        have := made_kind (op := .createIndep nm) hv (u := v) h.1
        rw [final_snoc] at this
        exact absurd (this.2.2.symm.trans hk) (by decide)
      | createOutput nm =>
        have := made_kind (op := .createOutput nm) hv (u := v) h.2
        rw [final_snoc] at this
        exact absurd (this.2.2.symm.trans hk) (by decide)
      | createImplicit nm => exact h.elim
      | combine args => exact used h.2
      | getItem x =>
        rcases h with ⟨_, _, h⟩ | ⟨h1, _, h⟩ | ⟨_, h⟩
        · exact used (by simp [Op.uses, h])
        · have h2 := (getItem_next (genv := genv) (final genv a) x).2.2 ((decomp_iff genv a x).2.2 h1)
          rw [h] at hk
          exact absurd (h2.symm.trans hk) (by decide)
        · obtain ⟨a1, a2, rfl, rfl, h1⟩ := h
          have hv1 := (validFrom_append genv a1 _ _).1 hva.1
          have ok1 : WorldOk (final genv a1) := run_ok a1 (worldOk_init genv) hv1.1
          have h2 := (getItem_next (genv := genv) (final genv a1) x).2.2 ((decomp_iff genv a1 x).2.2 h1)
          have h3 : (final genv a1).next < (step genv (final genv a1) (.getItem x)).1.next := by
            rw [(getItem_next (genv := genv) (final genv a1) x).1]
            split <;> omega
          have h4 := run_kind a2 (step_ok (env := genv) ok1 hv1.2.1) hv1.2.2 _ h3
          have h5 : (final genv (a1 ++ .getItem x :: a2)).kind (final genv a1).next = .decomp := by
            rw [final_split, final_snoc]
            exact h4.trans h2
          have h6 : (final genv a1).next < (final genv (a1 ++ .getItem x :: a2)).next := by
            rw [final_split, final_snoc]
            exact lt_of_lt_of_le h3 (run_next a2 (step_ok (env := genv) ok1 hv1.2.1) hv1.2.2)
          rw [(step_keeps ok hva.2.1).2.1 _ h6, h5] at hk
          cases hk
      | registerOutput nm x => exact used (by simp [Op.uses, h.2.1])
      | addSubsystem nm =>
        rcases h with ⟨_, h⟩ | ⟨_, h⟩
        · exact old ((madeOutput_iff hva.1 v).2 h)
        · rw [h, (step_addSubsystem (env := genv) ok nm).2.2.1] at hk
          cases hk
      | define out e => exact absurd ⟨out, e, rfl⟩ hd
      | setItem out e c => exact used (by simp [Op.uses, h.2.1])
      | defineResidual out e => exact used (by simp [Op.uses, h.2.1])
    · cases op with
      | define out e => exact absurd ⟨out, e, rfl⟩ hd
      | defineResidual out e =>
        have h' := (returned_kind hva.1 (hu a _ [] rfl out (by simp [Op.uses]))).2
        by_cases hko : (final genv a).kind out = .implicitOut
        · rw [hko] at h'
          simp at h'
        · have : (step genv (final genv a) (.defineResidual out e)).1 = final genv a := by
            unfold step; simp [hko]
          have h1 := h.2.2
          rw [this] at h1
          have h2 := h1.1
          rw [h.1] at h2
          exact absurd h2 (lt_irrefl _)
      | _ => exact h.elim

/-- Inputs depend on nothing but the subsystem added last before them. -/
theorem input_deps {genv : GEnv} {l : List Op} (hv : ValidFrom genv (World.init genv) l)
    (hs : SafeFrom genv (World.init genv) l) {u v : Ref} (hk : (final genv l).kind u = .input)
    (h : v ∈ (final genv l).deps u) :
    ∃ a nm b, l = a ++ .declareInput nm :: b ∧ u = (final genv a).next ∧ LastSubsystem genv a v := by
  induction l using List.reverseRecOn generalizing v with
  | nil => simp [final, run, World.init] at h
  | append_singleton a op ih =>
    have hva := (validFrom_append genv a _ _).1 hv
    have hsa := (safeFrom_append genv a _ _).1 hs
    have ok : WorldOk (final genv a) := run_ok a (worldOk_init genv) hva.1
    have old : ∀ {x}, x ∈ (final genv a).deps u →
        ∃ c nm b, a = c ++ .declareInput nm :: b ∧ u = (final genv c).next ∧ LastSubsystem genv c x := fun {x} hx => by
      have hlt : u < (final genv a).next := by
        by_contra hge
        rw [ok.fresh u (not_lt.1 hge)] at hx
        simp at hx
      exact ih hva.1 hsa.1 ((kind_at hv hlt).symm.trans hk) hx
    have ext : (∃ c nm b, a = c ++ .declareInput nm :: b ∧ u = (final genv c).next ∧ LastSubsystem genv c v) →
        ∃ c nm b, a ++ [op] = c ++ .declareInput nm :: b ∧ u = (final genv c).next ∧ LastSubsystem genv c v := by
      rintro ⟨c, nm, b, rfl, h1, h2⟩
      exact ⟨c, nm, b ++ [op], by simp, h1, h2⟩
    have sub : ∀ {out}, out ∈ (final genv a).deps u → (final genv a).kind out = .subsystem := fun {out} ho => by
      obtain ⟨c, nm, b, rfl, -, h1⟩ := old ho
      have hvc := (validFrom_append genv c _ _).1 hva.1
      have := (run_ok c (worldOk_init genv) hvc.1).recent out ((recent_iff genv c out).2 h1)
      rw [kind_at hva.1 this.2.1]
      exact this.2.2
    have oldKind : u < (final genv a).next → (final genv a).kind u = .input := fun hlt => (kind_at hv hlt).symm.trans hk
    have kind0 : u ≠ 0 := by
      rintro rfl
      have := oldKind ok.pos
      rw [ok.root] at this
      cases this
    have h0 := h
    rw [final_snoc] at h0 hk
    rcases step_links_only hva.1 hva.2.1 hsa.2.1 h0 with h1 | h1 | h1
    · exact ext (old h1)
    · cases op with
      | declareInput nm => exact ⟨a, nm, [], rfl, h1.1, h1.2⟩
      | createIndep nm =>
        rcases h1.2 with h2 | h2
        · exact absurd h2 kind0
        · have := ok.recent u ((recent_iff genv a u).2 h2)
          rw [oldKind this.2.1] at this
          exact absurd this.2.2 (by decide)
      | createOutput nm => exact absurd h1.1 kind0
      | createImplicit nm => exact h1.elim
      | combine args =>
        have := made_kind (op := .combine args) hv (u := u) h1.1
        rw [final_snoc] at this
        exact absurd (this.2.2.symm.trans hk) (by decide)
      | getItem x =>
        obtain ⟨g1, g2, g3⟩ := getItem_next (genv := genv) (final genv a) x
        have item : u = (step genv (final genv a) (.getItem x)).1.next - 1 → False := by
          intro e
          rw [← e] at g2
          exact absurd (g2.symm.trans hk) (by decide)
        rcases h1 with ⟨h2, h3, -⟩ | ⟨h2, h3, -⟩ | ⟨h2, h3⟩
        · have := g3 ((decomp_iff genv a x).2.2 h2)
          rw [← h3] at this
          exact absurd (this.symm.trans hk) (by decide)
        · refine (item ?_).elim
          rw [g1, if_pos ((decomp_iff genv a x).2.2 h2), h3]
          rfl
        · refine (item ?_).elim
          rw [g1, if_neg (by rw [((decomp_iff genv a x).1 v).2 h3]; simp), h2]
          rfl
      | registerOutput nm x => exact absurd h1.1 kind0
      | addSubsystem nm =>
        rcases h1 with ⟨h2, -⟩ | ⟨h2, -⟩
        · have := (step_addSubsystem (env := genv) ok nm).2.2.1
          rw [← h2] at this
          exact absurd (this.symm.trans hk) (by decide)
        · exact absurd h2 kind0
      | define out e =>
        obtain ⟨rfl, -, h2⟩ := h1
        have := oldKind hva.2.1.1.2
        unfold step at h2
        simp [this] at h2
      | setItem out e c =>
        obtain ⟨rfl, -, h2⟩ := h1
        rw [oldKind hva.2.1.1.2] at h2
        cases h2
      | defineResidual out e => exact absurd h1.1 kind0
    · cases op with
      | define out e =>
        have hk' := sub h1.2.1
        unfold step at h0
        simp [hk'] at h0
        exact ext (old h0)
      | defineResidual out e =>
        have hk' := sub h1.2.1
        unfold step at h0
        simp [hk'] at h0
        exact ext (old h0)
      | _ => exact h1.elim

end OM
