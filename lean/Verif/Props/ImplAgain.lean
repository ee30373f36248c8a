import Verif.Model.ImplAgain
import Verif.Lemmas.Shared
import Verif.Props.Inherit
import Verif.Props.ImplProgram

/-! # C89: an implicit component can be set up again -/

namespace OM
open Spec

variable {genv : GEnv} {senv : SetupEnv} {o : SetOrder Ref}

/-! ## Outputs stay outputs under their names -/

/-- The root is nobody's dependency, and its dependencies are objects that exist. -/
structure RootOut (w : World) : Prop where
  pos : 0 < w.next
  deps : ∀ u v, v ∈ w.deps u → 0 < v
  root : ∀ v, v ∈ w.deps 0 → v < w.next
  recent : ∀ s, w.recent = some s → 0 < s
  decomp : ∀ x d, w.decomp x = some d → 0 < d

theorem WorldOk.rootOut {w : World} (h : WorldOk w) : RootOut w :=
  ⟨h.pos, fun u v hv => (h.range u v hv).1, fun v hv => (h.range 0 v hv).2, fun s hs => (h.recent s hs).1,
    fun x d hd => (h.decomp x d hd).1⟩

theorem RootOut.alloc {w : World} (h : RootOut w) (k : Kind) (nm : String) : RootOut (w.alloc k nm) :=
  ⟨Nat.succ_pos _, h.deps, fun v hv => Nat.lt_succ_of_lt (h.root v hv), h.recent, h.decomp⟩

theorem RootOut.addDep {w : World} (h : RootOut w) {u v : Ref} (hv : 0 < v) (hu : u = 0 → v < w.next) :
    RootOut (w.addDep genv u v) := by
  refine ⟨h.pos, ?_, ?_, h.recent, h.decomp⟩
  · intro a b hb
    simp only [World.addDep, OM.addDep] at hb
    by_cases ha : a = u
    · subst ha
      rw [Function.update_self, genv.o.mem_iff, List.mem_append, List.mem_singleton] at hb
      rcases hb with hb | rfl
      · exact h.deps a b hb
      · exact hv
    · rw [Function.update_of_ne ha] at hb
      exact h.deps a b hb
  · intro b hb
    simp only [World.addDep, OM.addDep] at hb
    by_cases ha : 0 = u
    · subst ha
      rw [Function.update_self, genv.o.mem_iff, List.mem_append, List.mem_singleton] at hb
      rcases hb with hb | rfl
      · exact h.root b hb
      · exact hu rfl
    · rw [Function.update_of_ne ha] at hb
      exact h.root b hb

theorem mem_deps_addDep {w : World} {u v a x : Ref} (h : x ∈ w.deps a) : x ∈ (w.addDep genv u v).deps a := by
  simp only [World.addDep, OM.addDep]
  by_cases ha : a = u
  · subst ha
    rw [Function.update_self, genv.o.mem_iff]
    exact List.mem_append_left _ h
  · rwa [Function.update_of_ne ha]

/-- `w'` comes from `w` by calls: all outputs are outputs, under the same names. -/
def OutputsKept (w w' : World) : Prop := ∀ x ∈ w.deps 0, x ∈ w'.deps 0 ∧ w'.name x = w.name x

theorem OutputsKept.rfl {w : World} : OutputsKept w w := fun _ h => ⟨h, Eq.refl _⟩

theorem OutputsKept.trans {w w' w'' : World} (h : OutputsKept w w') (h' : OutputsKept w' w'') : OutputsKept w w'' := fun x hx =>
  ⟨(h' x (h x hx).1).1, (h' x (h x hx).1).2.trans (h x hx).2⟩

theorem OutputsKept.addDep {w w' : World} (h : OutputsKept w w') (u v : Ref) : OutputsKept w (w'.addDep genv u v) := fun x hx =>
  ⟨mem_deps_addDep (h x hx).1, (h x hx).2⟩

theorem OutputsKept.alloc {w w' : World} (h : OutputsKept w w') (hr : RootOut w') (k : Kind) (nm : String) :
    OutputsKept w (w'.alloc k nm) := fun x hx => by
  refine ⟨(h x hx).1, ?_⟩
  have := hr.root x (h x hx).1
  show Function.update w'.name w'.next nm x = _
  rw [Function.update_of_ne (by omega)]
  exact (h x hx).2

theorem register_kept {w : World} (h : RootOut w) (nm : String) {x : Ref} (hx : 0 < x ∧ x < w.next) :
    RootOut (w.register genv nm x).1 ∧ OutputsKept w (w.register genv nm x).1 := by
  unfold World.register
  split
  · exact ⟨h, OutputsKept.rfl⟩
  · split
    · exact ⟨h, OutputsKept.rfl⟩
    · rename_i hn
      have h' : RootOut { w with name := Function.update w.name x nm } := ⟨h.pos, h.deps, h.root, h.recent, h.decomp⟩
      refine ⟨h'.addDep hx.1 fun _ => hx.2, fun y hy => ⟨mem_deps_addDep (w := { w with name := Function.update w.name x nm }) hy, ?_⟩⟩
      show Function.update w.name x nm y = _
      rw [Function.update_of_ne]
      rintro rfl
      exact hn hy

theorem replace_kept {fuel : Nat} {out node leaf : Ref} {w : World} (h : RootOut w) {g : Graph} (ho : 0 < out)
    (hn : 0 < node) (hl : 0 < leaf) (hg : replaceLeafNodes genv.o fuel out node leaf w.deps = some g) :
    RootOut { w with deps := g } ∧ g 0 = w.deps 0 := by
  unfold replaceLeafNodes at hg
  rw [Option.map_eq_some_iff] at hg
  obtain ⟨h', hs, rfl⟩ := hg
  have key := replaceScan_outside genv.o out leaf (0 < ·) ho hl fuel _ _ _ _ _ hn
    (fun u _ _ x hx => h.deps u x hx) hs
  have h0 : h'.deps 0 = w.deps 0 := key.2 0 (lt_irrefl 0)
  refine ⟨⟨h.pos, ?_, ?_, h.recent, h.decomp⟩, h0⟩
  · intro u v hv
    by_cases hu : 0 < u
    · exact key.1 u hu _ v hv
    · obtain rfl : u = 0 := by omega
      have hv : v ∈ h'.deps 0 := hv
      rw [h0] at hv
      exact h.deps 0 v hv
  · intro v hv
    have hv : v ∈ h'.deps 0 := hv
    rw [h0] at hv
    exact h.root v hv

theorem step_kept {w : World} (h : RootOut w) {op : Op} (hv : op.Valid w) :
    RootOut (step genv w op).1 ∧ OutputsKept w (step genv w op).1 := by
  have hfold : ∀ (l : List Ref) (w' : World) (u : Ref), 0 < u → (∀ a ∈ l, 0 < a) → RootOut w' → OutputsKept w w' →
      RootOut (l.foldl (fun w' a => w'.addDep genv u a) w') ∧ OutputsKept w (l.foldl (fun w' a => w'.addDep genv u a) w') := by
    intro l
    induction l with
    | nil => intro w' u _ _ h1 h2; exact ⟨h1, h2⟩
    | cons a t ih =>
      intro w' u hu hl h1 h2
      rw [List.foldl_cons]
      exact ih _ u hu (fun b hb => hl b (List.mem_cons_of_mem _ hb))
        (h1.addDep (hl a (by simp)) fun e => absurd e hu.ne') (h2.addDep u a)
  have hfoldnext : ∀ (l : List Ref) (w' : World) (u : Ref),
      (l.foldl (fun w' a => w'.addDep genv u a) w').next = w'.next := by
    intro l
    induction l with
    | nil => intro w' u; rfl
    | cons a t ih => intro w' u; rw [List.foldl_cons, ih]; rfl
  cases op with
  | declareInput nm =>
    simp only [step]
    cases hr : w.recent with
    | none => exact ⟨h.alloc _ _, OutputsKept.rfl.alloc h _ _⟩
    | some s =>
      exact ⟨(h.alloc _ _).addDep (h.recent s hr) fun e => absurd e h.pos.ne', (OutputsKept.rfl.alloc h _ _).addDep _ _⟩
  | createIndep nm =>
    simp only [step]
    cases hr : w.recent with
    | none =>
      have := register_kept (genv := genv) (h.alloc .indep nm) nm (x := w.next) ⟨h.pos, Nat.lt_succ_self _⟩
      exact ⟨this.1, (OutputsKept.rfl.alloc h _ _).trans this.2⟩
    | some s =>
      have := register_kept (genv := genv) ((h.alloc .indep nm).addDep (genv := genv) (u := s) (v := w.next) h.pos
        fun _ => Nat.lt_succ_self _) nm (x := w.next) ⟨h.pos, Nat.lt_succ_self _⟩
      exact ⟨this.1, ((OutputsKept.rfl.alloc h _ _).addDep _ _).trans this.2⟩
  | createOutput nm =>
    exact ⟨(h.alloc _ _).addDep h.pos fun _ => Nat.lt_succ_self _, (OutputsKept.rfl.alloc h _ _).addDep _ _⟩
  | createImplicit nm => exact ⟨h.alloc _ _, OutputsKept.rfl.alloc h _ _⟩
  | combine args =>
    exact hfold args _ _ h.pos (fun a ha => (hv a ha).1) (h.alloc _ _) (OutputsKept.rfl.alloc h _ _)
  | getItem x =>
    simp only [step]
    cases hd : w.decomp x with
    | some d =>
      simp only [hd]
      exact ⟨(h.alloc _ _).addDep (h.decomp x d hd) fun e => absurd e h.pos.ne', (OutputsKept.rfl.alloc h _ _).addDep _ _⟩
    | none =>
      simp only [Function.update_self]
      have h1 := (h.alloc .decomp ("decompose_" ++ w.name x)).addDep (genv := genv) (u := w.next) hv.1
        fun e => absurd e h.pos.ne'
      have h2 : RootOut { ((w.alloc .decomp ("decompose_" ++ w.name x)).addDep genv w.next x) with
          decomp := Function.update w.decomp x (some w.next) } := by
        refine ⟨h1.pos, h1.deps, h1.root, h1.recent, ?_⟩
        intro y d hy
        by_cases hyx : y = x
        · subst hyx
          have hy : Function.update w.decomp y (some w.next) y = some d := hy
          rw [Function.update_self] at hy
          rw [← Option.some.inj hy]; exact h.pos
        · have hy : Function.update w.decomp x (some w.next) y = some d := hy
          rw [Function.update_of_ne hyx] at hy
          exact h.decomp y d hy
      have k2 : OutputsKept w { ((w.alloc .decomp ("decompose_" ++ w.name x)).addDep genv w.next x) with
          decomp := Function.update w.decomp x (some w.next) } := (OutputsKept.rfl.alloc h _ _).addDep _ _
      exact ⟨(h2.alloc _ _).addDep h.pos fun e => absurd e (Nat.succ_ne_zero _), (k2.alloc h2 _ _).addDep _ _⟩
  | registerOutput nm x => exact register_kept h nm hv
  | addSubsystem nm =>
    simp only [step]
    obtain ⟨h1, h2⟩ := hfold (w.deps 0) _ _ h.pos (fun a ha => h.deps 0 a ha) (h.alloc .subsystem nm)
      (OutputsKept.rfl.alloc h .subsystem nm)
    have h3 := h1.addDep (genv := genv) (u := 0) (v := w.next) h.pos fun _ => by
      rw [hfoldnext]; exact Nat.lt_succ_self _
    refine ⟨⟨h3.pos, h3.deps, h3.root, ?_, h3.decomp⟩, h2.addDep (genv := genv) 0 w.next⟩
    intro s hs
    rw [← Option.some.inj hs]; exact h.pos
  | define out e =>
    simp only [step]
    obtain ⟨⟨ho, ho'⟩, he, he'⟩ := hv
    split
    · exact ⟨h, OutputsKept.rfl⟩
    split
    · exact ⟨h, OutputsKept.rfl⟩
    split
    · exact ⟨h, OutputsKept.rfl⟩
    have h0 : RootOut { w with defined := Function.update w.defined out true } :=
      ⟨h.pos, h.deps, h.root, h.recent, h.decomp⟩
    have h1 := (h0.addDep (genv := genv) (u := out) he fun e => absurd e ho.ne')
    have h2 := h1.alloc .input (w.name out)
    have k1 : OutputsKept w (({ w with defined := Function.update w.defined out true } : World).addDep genv out e) :=
      OutputsKept.addDep (w' := { w with defined := Function.update w.defined out true }) OutputsKept.rfl out e
    have k2 := k1.alloc h1 .input (w.name out)
    split
    · exact ⟨h2, k2⟩
    · rename_i g hg
      obtain ⟨h3, h4⟩ := replace_kept h2 ho ho h1.pos hg
      refine ⟨h3, fun x hx => ⟨?_, (k2 x hx).2⟩⟩
      show x ∈ g 0
      rw [h4]; exact (k2 x hx).1
  | setItem out e check =>
    simp only [step]
    obtain ⟨⟨ho, ho'⟩, he, he'⟩ := hv
    have h1 := h.addDep (genv := genv) (u := out) he fun e => absurd e ho.ne'
    split
    · exact ⟨h, OutputsKept.rfl⟩
    · cases check with
      | some err => exact ⟨h1, OutputsKept.rfl.addDep _ _⟩
      | none => exact ⟨⟨h1.pos, h1.deps, h1.root, h1.recent, h1.decomp⟩, OutputsKept.rfl.addDep (genv := genv) out e⟩
  | defineResidual out e =>
    simp only [step]
    obtain ⟨⟨ho, ho'⟩, he, he'⟩ := hv
    split
    · exact ⟨h, OutputsKept.rfl⟩
    split
    · exact ⟨h, OutputsKept.rfl⟩
    split
    · exact ⟨h, OutputsKept.rfl⟩
    have h2 := h.alloc .input (w.name out)
    have k2 := OutputsKept.rfl.alloc h .input (w.name out)
    split
    · exact ⟨h2, k2⟩
    · rename_i g hg
      obtain ⟨h3, h4⟩ := replace_kept h2 ho he h.pos hg
      have k3 : OutputsKept w { (w.alloc .input (w.name out)) with deps := g } := fun x hx =>
        ⟨by show x ∈ g 0; rw [h4]; exact (k2 x hx).1, (k2 x hx).2⟩
      obtain ⟨h5, k5⟩ := register_kept (genv := genv) h3 ((w.alloc .input (w.name out)).name e) (x := e)
        ⟨he, Nat.lt_succ_of_lt he'⟩
      split
      · exact ⟨h5, k3.trans k5⟩
      · exact ⟨⟨h5.pos, h5.deps, h5.root, h5.recent, h5.decomp⟩, k3.trans k5⟩

theorem run_kept (ops : List Op) : ∀ {w : World}, RootOut w → ValidFrom genv w ops →
    RootOut (run genv w ops) ∧ OutputsKept w (run genv w ops) := by
  induction ops with
  | nil => intro w h _; exact ⟨h, OutputsKept.rfl⟩
  | cons op ops ih =>
    intro w h hv
    obtain ⟨h1, k1⟩ := step_kept (genv := genv) h hv.1
    obtain ⟨h2, k2⟩ := ih h1 hv.2
    exact ⟨h2, k1.trans k2⟩

/-- Sorting keeps the outputs. -/
theorem postSetup_kept {s s' : SetupState} {comps : List Ref} (h : postSetup senv s = .ok (s', comps))
    (hr : RootOut s.world) (hn : ∀ x ∈ s.nodes, 0 < x) :
    RootOut s'.world ∧ s'.world.deps 0 = s.world.deps 0 ∧ s'.world.name = s.world.name := by
  obtain ⟨st, l, h1, _, rfl⟩ := postSetup_inv h
  obtain ⟨g1, g2, hreg, hg1, hg2, _, _, hd, _⟩ := sortExpressions_inv h1
  have hpos : ∀ x ∈ st.nodes, 0 < x := by
    intro x hx
    rcases registerNodes_sub hreg x hx with hx | hx
    · exact hn x hx
    · obtain ⟨y, _, hy⟩ := Relation.TransGen.tail'_iff.1 hx
      exact hr.deps y x hy
  have h0 : (0 : Ref) ∉ st.nodes := fun h' => (hpos 0 h').false
  have hspec := addIndeps_spec senv.ov (fun u => s.world.kind u == .indep) 0 st.nodes s.world.deps h0
  have hremove : ∀ (nodes : List Ref) (g : Graph), 0 ∉ nodes → removeIndirectAll senv.oi nodes g 0 = g 0 := by
    intro nodes
    unfold removeIndirectAll
    induction nodes with
    | nil => intro g _; rfl
    | cons a t ih =>
      intro g hnot
      rw [List.foldl_cons, ih _ fun h' => hnot (List.mem_cons_of_mem _ h')]
      exact Function.update_of_ne (fun e => hnot (by simp [e])) _ _
  have hroot : st.deps 0 = s.world.deps 0 := by
    rw [hd, sortAll_not_mem _ _ _ _ _ h0, hg2, hremove _ _ h0, hg1, hspec.2.2 0 h0]
  refine ⟨⟨hr.pos, ?_, ?_, hr.recent, hr.decomp⟩, hroot, rfl⟩
  · intro u v hv
    have hv : v ∈ st.deps u := hv
    rw [hd, (sortAll_perm _ _ _ _ _).mem_iff, hg2] at hv
    have := removeIndirectAll_subset _ _ _ u v hv
    rw [hg1] at this
    rcases (hspec.1 u v).1 this with h' | ⟨_, _, _, h'⟩
    · exact hr.deps u v h'
    · exact hr.deps 0 v h'
  · intro v hv
    have hv : v ∈ st.deps 0 := hv
    rw [hroot] at hv
    exact hr.root v hv

/-! ## The loop over the residuals -/

theorem residualLoop_grows {w : World} {limit : Nat} (rs : List (Ref × String)) : ∀ (i : ImplInterface)
    (names : List String), ∀ n ∈ names, n ∈ (residualLoop w o limit i names rs).1 := by
  induction rs with
  | nil => intro i names n hn; exact hn
  | cons r rs ih =>
    intro i names n hn
    rw [residualLoop]
    split
    · exact hn
    · split
      · exact hn
      · exact ih _ _ n (List.mem_append_left _ hn)

theorem residualLoop_ok {w : World} {limit : Nat} (rs : List (Ref × String)) : ∀ {i i' : ImplInterface}
    {names : List String}, (residualLoop w o limit i names rs).2 = .ok i' →
    ∀ r ∈ rs, w.name r.1 ∉ names ∧ w.name r.1 ∈ (residualLoop w o limit i names rs).1 := by
  induction rs with
  | nil => intro i i' names _ r hr; cases hr
  | cons q rs ih =>
    intro i i' names h r hr
    rw [residualLoop] at h ⊢
    split at h
    · cases h
    · rename_i i1 h1
      split at h
      · cases h
      · rename_i hq
        simp only [h1, if_neg hq]
        rcases List.mem_cons.1 hr with rfl | hr
        · exact ⟨hq, residualLoop_grows rs _ _ _ (by simp)⟩
        · obtain ⟨h2, h3⟩ := ih h r hr
          exact ⟨fun h' => h2 (List.mem_append_left _ h'), h3⟩

/-- If the names of the residuals are new, the loop is that of C53. -/
theorem residualLoop_fresh {w : World} {limit : Nat} (rs : List (Ref × String)) : ∀ (i : ImplInterface)
    (names : List String), (rs.map fun r => w.name r.1).Nodup → (∀ r ∈ rs, w.name r.1 ∉ names) →
    (residualLoop w o limit i names rs).2 = rs.foldlM (ImplInterface.addResidual w o limit) i := by
  induction rs with
  | nil => intro i names _ _; rfl
  | cons r rs ih =>
    intro i names hnd hnew
    rw [residualLoop, List.foldlM_cons]
    cases i.addResidual w o limit r with
    | error e => rfl
    | ok i' =>
      simp only [if_neg (hnew r (by simp))]
      rw [List.map_cons, List.nodup_cons] at hnd
      refine ih _ _ hnd.2 fun q hq h' => ?_
      rcases List.mem_append.1 h' with h' | h'
      · exact hnew q (List.mem_cons_of_mem _ hq) h'
      · exact hnd.1 (List.mem_map.2 ⟨q, hq, List.mem_singleton.1 h'⟩)

/-! ## Setups -/

/-- The component has an output that was made a constraint before. -/
def ImplComp.Stuck (c : ImplComp) : Prop :=
  RootOut c.group.world ∧ ∃ x ∈ c.group.world.deps 0, x ∈ c.res.map Prod.fst ∧ c.group.world.name x ∈ c.constraints

theorem removeNonresiduals_rootOut {w : World} (h : RootOut w) (res : List (Ref × String)) :
    RootOut (w.removeNonresiduals res) := by
  refine ⟨h.pos, ?_, ?_, h.recent, h.decomp⟩
  · intro u v hv
    by_cases hu : u = 0
    · subst hu
      exact h.deps 0 v ((remove_root v).1 hv).1
    · have hv : v ∈ Function.update w.deps 0 ((w.deps 0).filter fun x => x ∈ res.map Prod.fst) u := hv
      rw [Function.update_of_ne hu] at hv
      exact h.deps u v hv
  · intro v hv
    exact h.root v ((remove_root v).1 hv).1

theorem find_residual {res : List (Ref × String)} {x : Ref} (h : x ∈ res.map Prod.fst) :
    ∃ r, (res.find? fun r => r.1 == x) = some r ∧ r.1 = x := by
  obtain ⟨q, hq, rfl⟩ := List.mem_map.1 h
  cases hf : res.find? fun r => r.1 == q.1 with
  | none => exact absurd (List.find?_eq_none.1 hf q hq) (by simp)
  | some r => exact ⟨r, rfl, by simpa using List.find?_some hf⟩

theorem stuck_setup {c : ImplComp} (hc : c.Stuck) {prog : List ImplStmt}
    (hv : ValidFrom genv c.group.world (implOps prog)) :
    (∃ e, (c.setup genv senv o prog).2 = .error e) ∧ (c.setup genv senv o prog).1.Stuck := by
  obtain ⟨hr, x, hx, hxr, hxc⟩ := hc
  obtain ⟨h1, k1⟩ := run_kept (implOps prog) hr hv
  have hx1 := k1 x hx
  have hmem : x ∈ (c.res ++ residualsFrom genv c.group.world prog).map Prod.fst := by
    rw [List.map_append]; exact List.mem_append_left _ hxr
  have hx2 : x ∈ ((run genv c.group.world (implOps prog)).removeNonresiduals
      (c.res ++ residualsFrom genv c.group.world prog)).deps 0 := (remove_root x).2 ⟨hx1.1, hmem⟩
  obtain ⟨r, hf, hrx⟩ := find_residual hmem
  have hlist : r ∈ (((run genv c.group.world (implOps prog)).removeNonresiduals
      (c.res ++ residualsFrom genv c.group.world prog)).deps 0).filterMap
        fun x => (c.res ++ residualsFrom genv c.group.world prog).find? fun r => r.1 == x :=
    List.mem_filterMap.2 ⟨x, hx2, hf⟩
  simp only [ImplComp.setup]
  split
  · rename_i e he
    refine ⟨⟨e, rfl⟩, removeNonresiduals_rootOut h1 _, x, hx2, hmem, ?_⟩
    refine residualLoop_grows _ _ _ _ ?_
    show (run genv c.group.world (implOps prog)).name x ∈ _
    rw [hx1.2]; exact hxc
  · rename_i i hi
    exfalso
    refine (residualLoop_ok _ hi r hlist).1 ?_
    rw [hrx]
    show (run genv c.group.world (implOps prog)).name x ∈ _
    rw [hx1.2]; exact hxc

/-- A successful setup of a new component with at least one output. -/
theorem stuck_first {prog : List ImplStmt} {c : ImplComp} {i : ImplInterface} {comps : List Ref}
    (hv : ValidFrom genv (World.init genv) (implOps prog))
    (h : (ImplComp.init genv).setup genv senv o prog = (c, .ok (i, comps))) (hout : i.outs ≠ []) : c.Stuck := by
  obtain ⟨h1, _⟩ := run_kept (implOps prog) (worldOk_init genv).rootOut hv
  simp only [ImplComp.setup] at h
  split at h
  · cases (Prod.mk.inj h).2
  · rename_i i' hi
    split at h
    · cases (Prod.mk.inj h).2
    · rename_i g comps' hp
      obtain ⟨rfl, h2⟩ := Prod.mk.inj h
      obtain ⟨rfl, rfl⟩ := Prod.mk.inj (Except.ok.inj h2)
      obtain ⟨p1, p2, p3⟩ := postSetup_kept hp (removeNonresiduals_rootOut h1 _) (by intro x hx; cases hx)
      refine ⟨p1, ?_⟩
      have hne : ∃ r, r ∈ (((run genv (World.init genv) (implOps prog)).removeNonresiduals
          ([] ++ residualsFrom genv (World.init genv) prog)).deps 0).filterMap
            fun x => ([] ++ residualsFrom genv (World.init genv) prog).find? fun (r : Ref × String) => r.1 == x := by
        by_contra hno
        push Not at hno
        have hnil := List.eq_nil_iff_forall_not_mem.2 hno
        apply hout
        change (residualLoop _ _ _ _ _ ((((run genv (World.init genv) (implOps prog)).removeNonresiduals
          ([] ++ residualsFrom genv (World.init genv) prog)).deps 0).filterMap
            fun x => ([] ++ residualsFrom genv (World.init genv) prog).find? fun (r : Ref × String) => r.1 == x)).2 = _ at hi
        rw [hnil] at hi
        rw [← Except.ok.inj hi]
      obtain ⟨r, hr⟩ := hne
      have hin := (residualLoop_ok _ hi r hr).2
      obtain ⟨x, hx, hf⟩ := List.mem_filterMap.1 hr
      have hrx : r.1 = x := by simpa using List.find?_some hf
      refine ⟨x, ?_, ?_, ?_⟩
      · show x ∈ g.world.deps 0
        rw [p2]; exact hx
      · rw [← hrx]; exact List.mem_map_of_mem (List.mem_of_find?_eq_some hf)
      · show g.world.name x ∈ _
        rw [p3, ← hrx]; exact hin

/-- Any number of further setups; exceptions are caught. -/
inductive ImplComp.After (genv : GEnv) (senv : SetupEnv) (o : SetOrder Ref) (c : ImplComp) : ImplComp → Prop
  | refl : After genv senv o c c
  | again {c' : ImplComp} {prog : List ImplStmt} : After genv senv o c c' →
      ValidFrom genv c'.group.world (implOps prog) → After genv senv o c (c'.setup genv senv o prog).1

/-- **C89, violated.** Once an implicit component with at least one output has been set up, every further setup raises,
whatever the user's `setup` calls and however often it was tried. -/
theorem c89_violated {prog : List ImplStmt} {c c' : ImplComp} {i : ImplInterface} {comps : List Ref}
    (hv : ValidFrom genv (World.init genv) (implOps prog))
    (h : (ImplComp.init genv).setup genv senv o prog = (c, .ok (i, comps))) (hout : i.outs ≠ [])
    (hc : c.After genv senv o c') {prog' : List ImplStmt} (hv' : ValidFrom genv c'.group.world (implOps prog')) :
    ∃ e, (c'.setup genv senv o prog').2 = .error e := by
  have hs : c'.Stuck := by
    clear hv'
    induction hc with
    | refl => exact stuck_first hv h hout
    | again _ hv1 ih => exact (stuck_setup ih hv1).2
  exact (stuck_setup hs hv').1

/-- **C89.** The first setup raises and gives what finding the variables of the component and setting its group up
raise and give, if the residuals have different names. -/
theorem c89_first_partial {prog : List ImplStmt}
    (hn : (((implWorld genv prog).deps 0).map (implWorld genv prog).name).Nodup) :
    ((ImplComp.init genv).setup genv senv o prog).2 =
      match implVars (implWorld genv prog) o senv.limit (residualsOf genv prog) with
      | .error e => .error e
      | .ok i =>
        match setupGroup senv (implWorld genv prog) with
        | .error e => .error e.py
        | .ok comps => .ok (i, comps) := by
  have hsub : ∀ l : List Ref, ((l.filterMap fun x => (residualsOf genv prog).find? fun r => r.1 == x).map
      fun r => (implWorld genv prog).name r.1).Sublist (l.map (implWorld genv prog).name) := by
    intro l
    induction l with
    | nil => exact List.Sublist.slnil
    | cons x l ih =>
      rw [List.filterMap_cons, List.map_cons]
      split
      · exact ih.cons _
      · rename_i r hr
        have hrx : r.1 = x := by simpa using List.find?_some hr
        rw [List.map_cons, hrx]
        exact ih.cons_cons _
  have hloop : (residualLoop (implWorld genv prog) o senv.limit ⟨[], [], []⟩ [] (((implWorld genv prog).deps 0).filterMap
      fun x => (residualsOf genv prog).find? fun r => r.1 == x)).2 =
        implVars (implWorld genv prog) o senv.limit (residualsOf genv prog) :=
    residualLoop_fresh _ _ _ ((hsub _).nodup hn) (by simp)
  have hpost : (postSetup senv { (SetupState.init genv) with world := implWorld genv prog }).map Prod.snd =
      setupGroup senv (implWorld genv prog) := postSetup_world _
  show (match (residualLoop (implWorld genv prog) o senv.limit ⟨[], [], []⟩ [] (((implWorld genv prog).deps 0).filterMap
      fun x => (residualsOf genv prog).find? fun r => r.1 == x)).2 with | .error e => _ | .ok i => _ :
        ImplComp × Except PyErr (ImplInterface × List Ref)).2 = _
  rw [hloop]
  cases implVars (implWorld genv prog) o senv.limit (residualsOf genv prog) with
  | error e => rfl
  | ok i =>
    rw [← hpost]
    show (match postSetup senv { (SetupState.init genv) with world := implWorld genv prog } with
      | .error e => _ | .ok (g, comps) => _ : ImplComp × Except PyErr (ImplInterface × List Ref)).2 = _
    cases postSetup senv { (SetupState.init genv) with world := implWorld genv prog } with
    | error e => rfl
    | ok r => rfl

/-! ## The component for the square root, set up twice -/

/-- The same `setup` again: the objects are new. -/
noncomputable def rootProg2 : List ImplStmt :=
  [.stmt (.declareInput "x" [1]), .createImplicit "y" [1], .stmt (.expr (.pow 7 2)),
   .stmt (.expr (.sub (.ref 8) (.ref 6))), .defineResidual 7 9]

theorem root_first : ((ImplComp.init progGEnv).setup progGEnv demoEnv demoEnv.ov rootProg).2 =
    .ok (⟨["y"], ["x"], [("y", "x"), ("y", "y")]⟩, [3, 4]) := by
  rw [c89_first_partial (by decide)]
  rfl

theorem root_valid2 : ValidFrom progGEnv ((ImplComp.init progGEnv).setup progGEnv demoEnv demoEnv.ov rootProg).1.group.world
    (implOps rootProg2) := by
  refine ⟨trivial, trivial, ?_, ?_, ?_, trivial⟩
  · show ∀ a ∈ [7], 0 < a ∧ a < 8
    decide
  · show ∀ a ∈ [8, 6], 0 < a ∧ a < 9
    decide
  · show (0 < 7 ∧ 7 < 10) ∧ 0 < 9 ∧ 9 < 10
    decide

/-- The hypotheses of `c89_violated` are met; the second setup raises. -/
example : ∃ e, ((((ImplComp.init progGEnv).setup progGEnv demoEnv demoEnv.ov rootProg).1).setup progGEnv demoEnv
    demoEnv.ov rootProg2).2 = .error e :=
  c89_violated (i := ⟨["y"], ["x"], [("y", "x"), ("y", "y")]⟩) (comps := [3, 4]) root_group.valid
    (Prod.ext rfl root_first) (by simp) .refl root_valid2

/-- It is OpenMDAO that raises, for the constraint. -/
example : ((((ImplComp.init progGEnv).setup progGEnv demoEnv demoEnv.ov rootProg).1).setup progGEnv demoEnv
    demoEnv.ov rootProg2).2 = .error .runtimeError := by
  rfl

end OM
