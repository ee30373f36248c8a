import Verif.Model.Group
import Verif.Lemmas.Replace
import Verif.Lemmas.Pipeline

/-! # Invariants of the group state over histories of API calls -/

namespace OM
open Spec

/-! ## Acyclic graphs -/

/-- Nothing depends on itself. -/
def AcyclicG (g : Graph) : Prop := ∀ v, ¬ Needs g v v

theorem needs_addDep {o : SetOrder Ref} {g : Graph} {u v x y : Ref}
    (h : Needs (addDep o g u v) x y) : Needs g x y ∨ (Reach g x u ∧ Reach g v y) := by
  induction h with
  | single h =>
    rcases (mem_addDep o g u v x _).1 h with h | ⟨rfl, rfl⟩
    · exact Or.inl (Relation.TransGen.single h)
    · exact Or.inr ⟨Relation.ReflTransGen.refl, Relation.ReflTransGen.refl⟩
  | tail _ h ih =>
    rename_i y z _
    rcases (mem_addDep o g u v y z).1 h with h | ⟨rfl, rfl⟩
    · rcases ih with ih | ⟨ih1, ih2⟩
      · exact Or.inl (ih.tail h)
      · exact Or.inr ⟨ih1, ih2.tail h⟩
    · rcases ih with ih | ⟨ih1, _⟩
      · exact Or.inr ⟨ih.to_reflTransGen, Relation.ReflTransGen.refl⟩
      · exact Or.inr ⟨ih1, Relation.ReflTransGen.refl⟩

theorem acyclic_addDep {o : SetOrder Ref} {g : Graph} {u v : Ref} (hac : AcyclicG g)
    (h : ¬ Reach g v u) : AcyclicG (addDep o g u v) := by
  intro x hx
  rcases needs_addDep hx with hx | ⟨h1, h2⟩
  · exact hac x hx
  · exact h (Relation.ReflTransGen.trans h2 h1)

theorem not_reach_of_no_edge {g : Graph} {v u : Ref} (hne : v ≠ u) (h : ∀ x, u ∉ g x) :
    ¬ Reach g v u := by
  intro hr
  rcases Relation.ReflTransGen.cases_tail hr with rfl | ⟨c, _, hc⟩
  · exact hne rfl
  · exact h c hc

theorem not_reach_of_leaf {g : Graph} {v u : Ref} (hne : v ≠ u) (h : g v = []) : ¬ Reach g v u := by
  intro hr
  rcases Relation.ReflTransGen.cases_head hr with rfl | ⟨c, hc, _⟩
  · exact hne rfl
  · unfold Edge at hc; rw [h] at hc; simp at hc

/-- Replacing edges to one node by edges to a node without dependencies creates no cycle. -/
theorem acyclic_replaced {o : SetOrder Ref} {root leaf : Ref} {g g' : Graph} (hn : ∀ u, (g u).Nodup)
    (hac : AcyclicG g) (hr : Replaced o root leaf g g') (hl : g' leaf = []) : AcyclicG g' := by
  have hedge : ∀ x y, y ∈ g' x → y ∈ g x ∨ y = leaf := by
    intro x y h
    rcases hr x with e | ⟨_, e⟩
    · rw [e] at h; exact Or.inl h
    · rw [e, mem_replaced o root leaf (hn x)] at h
      exact h.imp And.left id
  have key : ∀ x y, Needs g' x y → Needs g x y ∨ y = leaf := by
    intro x y h
    induction h with
    | single h => exact (hedge _ _ h).imp Relation.TransGen.single id
    | tail _ h ih =>
      rcases ih with ih | rfl
      · exact (hedge _ _ h).imp (ih.tail) id
      · unfold Edge at h; rw [hl] at h; simp at h
  intro x hx
  rcases key x x hx with h | rfl
  · exact hac x h
  · obtain ⟨y, hy, _⟩ := Relation.TransGen.head'_iff.1 hx
    unfold Edge at hy; rw [hl] at hy; simp at hy

/-- `define`: adding `out → e` and replacing all edges to `out` below `out`. -/
theorem acyclic_define {o : SetOrder Ref} {out e leaf : Ref} {g g' : Graph}
    (hn : ∀ u, (g u).Nodup) (hac : AcyclicG g)
    (hr : Replaced o out leaf (addDep o g out e) g') (hl : g' leaf = [])
    (hclean : CleanFrom out g' out) : AcyclicG g' := by
  have hedge : ∀ x y, y ∈ g' x → y ∈ g x ∨ y = leaf ∨ x = out := by
    intro x y h
    by_cases hx : x = out
    · exact Or.inr (Or.inr hx)
    · rcases hr x with e | ⟨_, e⟩
      · rw [e, addDep_of_ne _ _ _ hx] at h; exact Or.inl h
      · rw [addDep_of_ne _ _ _ hx] at e
        rw [e, mem_replaced o out leaf (hn x)] at h
        rcases h with h | h
        · exact Or.inl h.1
        · exact Or.inr (Or.inl h)
  have key : ∀ x y, Needs g' x y → Needs g x y ∨ y = leaf ∨ (Reach g' x out ∧ Needs g' out y) := by
    intro x y h
    induction h with
    | single h =>
      rcases hedge _ _ h with h' | h' | rfl
      · exact Or.inl (Relation.TransGen.single h')
      · exact Or.inr (Or.inl h')
      · exact Or.inr (Or.inr ⟨Relation.ReflTransGen.refl, Relation.TransGen.single h⟩)
    | tail hxy h ih =>
      rcases ih with ih | rfl | ⟨ih1, ih2⟩
      · rcases hedge _ _ h with h' | h' | rfl
        · exact Or.inl (ih.tail h')
        · exact Or.inr (Or.inl h')
        · exact Or.inr (Or.inr ⟨hxy.to_reflTransGen, Relation.TransGen.single h⟩)
      · unfold Edge at h; rw [hl] at h; simp at h
      · exact Or.inr (Or.inr ⟨ih1, ih2.tail h⟩)
  intro x hx
  rcases key x x hx with h | rfl | ⟨h1, h2⟩
  · exact hac x h
  · obtain ⟨y, hy, _⟩ := Relation.TransGen.head'_iff.1 hx
    unfold Edge at hy; rw [hl] at hy; simp at hy
  · have : Needs g' out out := Relation.TransGen.trans_left h2 h1
    obtain ⟨y, hy, hyo⟩ := Relation.TransGen.tail'_iff.1 this
    exact hclean y hy hyo

/-! ## What `replace_output_leaf_nodes` does -/

/-- Nodes outside a set closed under dependencies are not touched. -/
theorem replaceScan_outside (o : SetOrder Ref) (root leaf : Ref) (P : Ref → Prop) (hroot : P root)
    (hleaf : P leaf) (n : Nat) : ∀ (node : Ref) (obj i : Nat) (h h' : DepHeap), P node →
    (∀ u, P u → ∀ v, ∀ x ∈ h.lists u v, P x) →
    replaceScan o root leaf n node obj i h = some h' →
    (∀ u, P u → ∀ v, ∀ x ∈ h'.lists u v, P x) ∧ ∀ u, ¬ P u → h'.deps u = h.deps u := by
  induction n with
  | zero => intro node obj i h h' _ _ hs; simp [replaceScan] at hs
  | succ n ih =>
    intro node obj i h h' hnode hP hs
    unfold replaceScan at hs
    cases hi : (h.lists node obj)[i]? with
    | none =>
      simp only [hi, Option.some.injEq] at hs
      subst hs
      exact ⟨hP, fun _ _ => rfl⟩
    | some dep =>
      simp only [hi] at hs
      have hdep : P dep := hP node hnode obj dep (List.mem_of_getElem? hi)
      set h1 := if dep = root then replaceDep o root leaf node h else h with hh1
      have h1P : (∀ u, P u → ∀ v, ∀ x ∈ h1.lists u v, P x) ∧ ∀ u, ¬ P u → h1.deps u = h.deps u := by
        rw [hh1]
        split
        · have hl : ∀ x ∈ removeDepNode (h.deps node) root ++ [leaf], P x := by
            intro x hx
            rw [removeDepNode_eq_erase, List.mem_append, List.mem_singleton] at hx
            rcases hx with hx | rfl
            · exact hP node hnode _ x (List.mem_of_mem_erase hx)
            · exact hleaf
          constructor
          · intro u hu v x hx
            unfold replaceDep at hx
            simp only at hx
            by_cases hun : u = node
            · subst hun
              rw [Function.update_self] at hx
              by_cases hv1 : v = h.ver u + 1
              · subst hv1
                rw [Function.update_self, o.mem_iff] at hx
                exact hl x hx
              · rw [Function.update_of_ne hv1] at hx
                by_cases hv2 : v = h.ver u
                · subst hv2
                  rw [Function.update_self] at hx
                  exact hl x hx
                · rw [Function.update_of_ne hv2] at hx
                  exact hP u hu v x hx
            · rw [Function.update_of_ne hun] at hx
              exact hP u hu v x hx
          · intro u hu
            apply replaceDep_deps_ne
            rintro rfl
            exact hu hnode
        · exact ⟨hP, fun _ _ => rfl⟩
      cases h2e : replaceScan o root leaf n dep (h1.ver dep) 0 h1 with
      | none => simp [h2e] at hs
      | some h2 =>
        simp only [h2e] at hs
        obtain ⟨a1, a2⟩ := ih _ _ _ _ _ hdep h1P.1 h2e
        obtain ⟨b1, b2⟩ := ih _ _ _ _ _ hnode a1 hs
        exact ⟨b1, fun u hu => (b2 u hu).trans ((a2 u hu).trans (h1P.2 u hu))⟩

theorem replaceLeafNodes_spec {o : SetOrder Ref} {fuel : Nat} {root node leaf : Ref} {g g' : Graph}
    (hne : leaf ≠ root) (hn : ∀ u, (g u).Nodup) (hl : g leaf = [])
    (hfin : ∃ univ : List Ref, ∀ u, root ∈ g u → u ∈ univ)
    (h : replaceLeafNodes o fuel root node leaf g = some g') :
    Replaced o root leaf g g' ∧ (∀ u, (g' u).Nodup) ∧ g' leaf = [] ∧
      (node = root → CleanFrom root g' root) ∧
      (∀ P : Ref → Prop, P root → P leaf → P node → (∀ u, P u → ∀ x ∈ g u, P x) →
        ∀ u, ¬ P u → g' u = g u) := by
  obtain ⟨univ, hu⟩ := hfin
  unfold replaceLeafNodes at h
  rw [Option.map_eq_some_iff] at h
  obtain ⟨h', hs, rfl⟩ := h
  have ok := heapOk_ofGraph root leaf univ hn hu hl
  obtain ⟨ok', r, _, _, _⟩ := replaceScan_frame o root leaf hne univ fuel _ _ _ _ _ ok (le_refl 0) hs
  refine ⟨r, ok'.nodup, ok'.leaf_nil, ?_, ?_⟩
  · rintro rfl
    rcases replaceScan_clean o node leaf fuel _ _ _ _ _ hs with ⟨e, hc⟩ | hc
    · rw [e]
      apply cleanFrom_of_children
      rw [List.drop_zero] at hc
      exact hc
    · exact hc
  · intro P h1 h2 h3 h4 u hnu
    exact (replaceScan_outside o root leaf P h1 h2 fuel _ _ _ _ _ h3 (fun u hu v x hx => h4 u hu x hx)
      hs).2 u hnu

/-! ## Invariants -/

structure WorldOk (w : World) : Prop where
  pos : 0 < w.next
  fresh : ∀ u, w.next ≤ u → w.deps u = []
  range : ∀ u v, v ∈ w.deps u → 0 < v ∧ v < w.next
  nodup : ∀ u, (w.deps u).Nodup
  indep : ∀ u, w.kind u = .indep → w.deps u = []
  recent : ∀ s, w.recent = some s → 0 < s ∧ s < w.next ∧ w.kind s = .subsystem
  decomp : ∀ x d, w.decomp x = some d → 0 < d ∧ d < w.next
  root : w.kind 0 = .root

theorem worldOk_init (env : GEnv) : WorldOk (World.init env) := by
  refine ⟨by simp [World.init], by simp [World.init], by simp [World.init], by simp [World.init],
    by simp [World.init], by simp [World.init], by simp [World.init], rfl⟩

theorem WorldOk.alloc {w : World} (ok : WorldOk w) (k : Kind) (nm : String) :
    WorldOk (w.alloc k nm) := by
  refine ⟨Nat.succ_pos _, ?_, ?_, ok.nodup, ?_, ?_, ?_, ?_⟩
  · intro u hu; exact ok.fresh u (by simp [World.alloc] at hu; omega)
  · intro u v hv
    have := ok.range u v hv
    exact ⟨this.1, by simp [World.alloc]; omega⟩
  · intro u hu
    by_cases he : u = w.next
    · rw [he]; exact ok.fresh _ le_rfl
    · simp only [World.alloc, Function.update_of_ne he] at hu
      exact ok.indep u hu
  · intro s hs
    obtain ⟨h1, h2, h3⟩ := ok.recent s hs
    refine ⟨h1, by simp [World.alloc]; omega, ?_⟩
    simp only [World.alloc, Function.update_of_ne (show s ≠ w.next by omega)]
    exact h3
  · intro x d hd
    have := ok.decomp x d hd
    exact ⟨this.1, by simp [World.alloc]; omega⟩
  · simp only [World.alloc, Function.update_of_ne (show 0 ≠ w.next from ok.pos.ne)]
    exact ok.root

theorem WorldOk.addDep {env : GEnv} {w : World} (ok : WorldOk w) {u v : Ref} (hu : u < w.next)
    (hv : 0 < v ∧ v < w.next) (hk : w.kind u ≠ .indep) : WorldOk (w.addDep env u v) := by
  refine ⟨ok.pos, ?_, ?_, ?_, ?_, ok.recent, ok.decomp, ok.root⟩
  · intro a ha
    show OM.addDep env.o w.deps u v a = []
    rw [addDep_of_ne _ _ _ (show a ≠ u by have : w.next ≤ a := ha; omega)]
    exact ok.fresh a ha
  · intro a b hb
    rcases (mem_addDep env.o w.deps u v a b).1 hb with h | ⟨_, rfl⟩
    · exact ok.range a b h
    · exact hv
  · intro a; exact nodup_addDep env.o w.deps u v a (ok.nodup a)
  · intro a ha
    show OM.addDep env.o w.deps u v a = []
    rw [addDep_of_ne _ _ _ (show a ≠ u by rintro rfl; exact hk ha)]
    exact ok.indep a ha

theorem WorldOk.register {env : GEnv} {w : World} (ok : WorldOk w) {nm : String} {x : Ref}
    (hx : 0 < x ∧ x < w.next) : WorldOk (w.register env nm x).1 := by
  unfold World.register
  split
  · exact ok
  · split
    · exact ok
    · apply WorldOk.addDep (w := { w with name := Function.update w.name x nm })
      · exact ⟨ok.pos, ok.fresh, ok.range, ok.nodup, ok.indep, ok.recent, ok.decomp, ok.root⟩
      · exact ok.pos
      · exact hx
      · show w.kind 0 ≠ .indep
        rw [ok.root]; decide

/-- Adding several dependencies of the same object. -/
theorem WorldOk.addDeps {env : GEnv} {u : Ref} (ds : List Ref) : ∀ {w : World}, WorldOk w →
    u < w.next → w.kind u ≠ .indep → (∀ d ∈ ds, 0 < d ∧ d < w.next) →
    WorldOk (ds.foldl (fun w' d => w'.addDep env u d) w) ∧
    (ds.foldl (fun w' d => w'.addDep env u d) w).next = w.next ∧
    (ds.foldl (fun w' d => w'.addDep env u d) w).kind = w.kind ∧
    (ds.foldl (fun w' d => w'.addDep env u d) w).recent = w.recent ∧
    (ds.foldl (fun w' d => w'.addDep env u d) w).decomp = w.decomp ∧
    (ds.foldl (fun w' d => w'.addDep env u d) w).defined = w.defined ∧
    (ds.foldl (fun w' d => w'.addDep env u d) w).indexed = w.indexed ∧
    (ds.foldl (fun w' d => w'.addDep env u d) w).name = w.name ∧
    (∀ a b, b ∈ (ds.foldl (fun w' d => w'.addDep env u d) w).deps a ↔
      b ∈ w.deps a ∨ (a = u ∧ b ∈ ds)) := by
  induction ds with
  | nil => intro w ok _ _ _; exact ⟨ok, rfl, rfl, rfl, rfl, rfl, rfl, rfl, by simp⟩
  | cons d ds ih =>
    intro w ok hu hk hds
    rw [List.foldl_cons]
    obtain ⟨h1, h2, h3, h4, h5, h6, h7, h8, h9⟩ := ih (w := w.addDep env u d)
      (ok.addDep hu (hds d (by simp)) hk) hu hk
      (fun x hx => hds x (List.mem_cons_of_mem _ hx))
    refine ⟨h1, h2, h3, h4, h5, h6, h7, h8, fun a b => ?_⟩
    rw [h9]
    show b ∈ OM.addDep env.o w.deps u d a ∨ _ ↔ _
    rw [mem_addDep, List.mem_cons]
    tauto

theorem WorldOk.setDeps {w : World} (ok : WorldOk w) {o : SetOrder Ref} {root leaf : Ref} {g : Graph}
    (hr : Replaced o root leaf w.deps g) (hn : ∀ u, (g u).Nodup)
    (hleaf : 0 < leaf ∧ leaf < w.next) : WorldOk { w with deps := g } := by
  refine ⟨ok.pos, ?_, ?_, hn, ?_, ok.recent, ok.decomp, ok.root⟩
  · intro u hu
    rcases hr u with e | ⟨h, _⟩
    · show g u = []
      rw [e]; exact ok.fresh u hu
    · rw [ok.fresh u hu] at h; simp at h
  · intro u v hv
    rcases hr u with e | ⟨_, e⟩
    · have hv' : v ∈ g u := hv
      rw [e] at hv'
      exact ok.range u v hv'
    · have hv' : v ∈ g u := hv
      rw [e, mem_replaced o root leaf (ok.nodup u)] at hv'
      rcases hv' with ⟨h, _⟩ | rfl
      · exact ok.range u v h
      · exact hleaf
  · intro u hu
    rcases hr u with e | ⟨h, _⟩
    · show g u = []
      rw [e]; exact ok.indep u hu
    · have : w.deps u = [] := ok.indep u hu
      rw [this] at h; simp at h

theorem WorldOk.finite {w : World} (ok : WorldOk w) (root : Ref) :
    ∃ univ : List Ref, ∀ u, root ∈ w.deps u → u ∈ univ :=
  ⟨List.range w.next, fun u hu => by
    by_contra h
    simp only [List.mem_range, not_lt] at h
    rw [ok.fresh u h] at hu
    simp at hu⟩

/-- What `define` does when it gets past its checks and finishes. -/
theorem define_spec {env : GEnv} {w : World} (ok : WorldOk w) {out e : Ref} (hout : 0 < out ∧ out < w.next)
    (he : 0 < e ∧ e < w.next) (hk : w.kind out = .explicitOut) {g : Graph}
    (h : replaceLeafNodes env.o env.fuel out out w.next (OM.addDep env.o w.deps out e) = some g) :
    let w1 := ({ w with defined := Function.update w.defined out true } : World).addDep env out e
    let w2 := w1.alloc .input (w.name out)
    WorldOk { w2 with deps := g } ∧ Replaced env.o out w.next (OM.addDep env.o w.deps out e) g ∧
      g w.next = [] ∧ CleanFrom out g out ∧ g 0 = w.deps 0 := by
  intro w1 w2
  have ok0 : WorldOk ({ w with defined := Function.update w.defined out true } : World) :=
    ⟨ok.pos, ok.fresh, ok.range, ok.nodup, ok.indep, ok.recent, ok.decomp, ok.root⟩
  have ok1 : WorldOk w1 := ok0.addDep hout.2 he (by show w.kind out ≠ .indep; rw [hk]; decide)
  have ok2 : WorldOk w2 := ok1.alloc _ _
  have hl : OM.addDep env.o w.deps out e w.next = [] := ok1.fresh _ le_rfl
  obtain ⟨r, hn, hg, hc, hP⟩ := replaceLeafNodes_spec (show w.next ≠ out by omega)
    ok1.nodup hl (ok1.finite out) h
  refine ⟨ok2.setDeps r hn ⟨ok.pos, Nat.lt_succ_self _⟩, r, hg, hc rfl, ?_⟩
  have := hP (fun u => u ≠ 0) (show out ≠ 0 by omega) (show w.next ≠ 0 from ok.pos.ne')
    (show out ≠ 0 by omega) (fun u _ x hx => (ok1.range u x hx).1.ne') 0 (by simp)
  rw [this]
  exact addDep_of_ne _ _ _ (show 0 ≠ out by omega)

/-- What the replacement of `define_residual` does when it finishes. -/
theorem residual_spec {env : GEnv} {w : World} (ok : WorldOk w) {out e : Ref}
    (hout : 0 < out ∧ out < w.next) (he : 0 < e ∧ e < w.next) {g : Graph}
    (h : replaceLeafNodes env.o env.fuel out e w.next w.deps = some g) :
    WorldOk { w.alloc .input (w.name out) with deps := g } ∧ Replaced env.o out w.next w.deps g ∧
      g w.next = [] ∧ g 0 = w.deps 0 := by
  obtain ⟨r, hn, hg, _, hP⟩ := replaceLeafNodes_spec (show w.next ≠ out by omega)
    ok.nodup (ok.fresh _ le_rfl) (ok.finite out) h
  refine ⟨(ok.alloc _ _).setDeps r hn ⟨ok.pos, Nat.lt_succ_self _⟩, r, hg, ?_⟩
  exact hP (fun u => u ≠ 0) (show out ≠ 0 by omega) (show w.next ≠ 0 from ok.pos.ne')
    (show e ≠ 0 by omega) (fun u _ x hx => (ok.range u x hx).1.ne') 0 (by simp)

theorem step_ok {env : GEnv} {w : World} (ok : WorldOk w) {op : Op} (hv : op.Valid w) :
    WorldOk (step env w op).1 := by
  have hpos := ok.pos
  cases op with
  | declareInput nm =>
    unfold step
    cases hr : w.recent with
    | none => exact ok.alloc _ _
    | some s =>
      obtain ⟨h1, h2, _⟩ := ok.recent s hr
      exact (ok.alloc .input nm).addDep (Nat.lt_succ_self _)
        ⟨h1, Nat.lt_succ_of_lt h2⟩ (by simp [World.alloc])
  | createIndep nm =>
    unfold step
    cases hr : w.recent with
    | none => exact (ok.alloc .indep nm).register ⟨hpos, Nat.lt_succ_self _⟩
    | some s =>
      obtain ⟨h1, h2, h3⟩ := ok.recent s hr
      refine WorldOk.register (w := (w.alloc .indep nm).addDep env s w.next)
        ((ok.alloc .indep nm).addDep (Nat.lt_succ_of_lt h2)
        ⟨hpos, Nat.lt_succ_self _⟩ ?_) ⟨hpos, Nat.lt_succ_self _⟩
      simp only [World.alloc, Function.update_of_ne (show s ≠ w.next by omega), h3]
      decide
  | createOutput nm =>
    refine (ok.alloc .explicitOut nm).addDep (Nat.succ_pos _) ⟨hpos, Nat.lt_succ_self _⟩ ?_
    simp only [World.alloc, Function.update_of_ne (show 0 ≠ w.next by omega), ok.root]
    decide
  | createImplicit nm => exact ok.alloc _ _
  | combine args =>
    exact (WorldOk.addDeps args (ok.alloc .expr (env.autoName w.next)) (Nat.lt_succ_self _)
      (by simp [World.alloc]) (fun d hd => ⟨(hv d hd).1, Nat.lt_succ_of_lt (hv d hd).2⟩)).1
  | getItem x =>
    unfold step
    simp only
    cases hd : w.decomp x with
    | some d =>
      simp only [hd]
      obtain ⟨h1, h2⟩ := ok.decomp x d hd
      exact (ok.alloc .item _).addDep (Nat.lt_succ_self _) ⟨h1, Nat.lt_succ_of_lt h2⟩
        (by simp [World.alloc])
    | none =>
      simp only [Function.update_self]
      have ok1 := (ok.alloc .decomp ("decompose_" ++ w.name x)).addDep (env := env) (u := w.next)
        (v := x) (Nat.lt_succ_self _) ⟨hv.1, Nat.lt_succ_of_lt hv.2⟩ (by simp [World.alloc])
      have ok2 : WorldOk { ((w.alloc .decomp ("decompose_" ++ w.name x)).addDep env w.next x) with
          decomp := Function.update w.decomp x (some w.next) } := by
        refine ⟨ok1.pos, ok1.fresh, ok1.range, ok1.nodup, ok1.indep, ok1.recent, ?_, ok1.root⟩
        intro y d hd''
        have hd' : Function.update w.decomp x (some w.next) y = some d := hd''
        by_cases hy : y = x
        · subst hy
          rw [Function.update_self] at hd'
          simp only [Option.some.injEq] at hd'
          subst hd'
          exact ⟨hpos, Nat.lt_succ_self _⟩
        · rw [Function.update_of_ne hy] at hd'
          exact ok1.decomp y d hd'
      exact (ok2.alloc .item _).addDep (Nat.lt_succ_self _)
        ⟨hpos, Nat.lt_succ_of_lt (Nat.lt_succ_self _)⟩ (by simp [World.alloc])
  | registerOutput nm x => exact ok.register hv
  | addSubsystem nm =>
    unfold step
    simp only
    obtain ⟨h1, h2, h3, _⟩ := WorldOk.addDeps (env := env) (w.deps 0) (ok.alloc .subsystem nm)
      (u := w.next) (Nat.lt_succ_self _) (by simp [World.alloc])
      (fun d hd => ⟨(ok.range 0 d hd).1, Nat.lt_succ_of_lt (ok.range 0 d hd).2⟩)
    set w1 := (w.deps 0).foldl (fun w' d => w'.addDep env w.next d) (w.alloc .subsystem nm)
    have ok2 := h1.addDep (env := env) (u := 0) (v := w.next) h1.pos
      ⟨hpos, by rw [h2]; exact Nat.lt_succ_self _⟩ (by rw [h1.root]; decide)
    refine ⟨ok2.pos, ok2.fresh, ok2.range, ok2.nodup, ok2.indep, ?_, ok2.decomp, ok2.root⟩
    intro s hs
    simp only [Option.some.injEq] at hs
    subst hs
    refine ⟨hpos, ?_, ?_⟩
    · show w.next < w1.next
      rw [h2]; exact Nat.lt_succ_self _
    · show w1.kind w.next = .subsystem
      rw [h3]; simp [World.alloc]
  | define out e =>
    unfold step
    simp only
    split
    · exact ok
    · rename_i hk
      split
      · exact ok
      · split
        · exact ok
        · have ok0 : WorldOk ({ w with defined := Function.update w.defined out true } : World) :=
            ⟨ok.pos, ok.fresh, ok.range, ok.nodup, ok.indep, ok.recent, ok.decomp, ok.root⟩
          have hk' : w.kind out = .explicitOut := by simpa using hk
          have ok1 := ok0.addDep (env := env) hv.1.2 hv.2 (by
            show w.kind out ≠ .indep; rw [hk']; decide)
          split
          · exact ok1.alloc _ _
          · rename_i g hg
            exact (define_spec ok hv.1 hv.2 hk' hg).1
  | setItem out e check =>
    unfold step
    simp only
    split
    · exact ok
    · rename_i hk
      have hk' : w.kind out = .explicitOut := by simpa using hk
      have ok1 := ok.addDep (env := env) hv.1.2 hv.2 (by rw [hk']; decide)
      cases check with
      | some err => exact ok1
      | none =>
        exact ⟨ok1.pos, ok1.fresh, ok1.range, ok1.nodup, ok1.indep, ok1.recent, ok1.decomp, ok1.root⟩
  | defineResidual out e =>
    unfold step
    simp only
    split
    · exact ok
    · split
      · exact ok
      · split
        · exact ok
        · split
          · exact ok.alloc _ _
          · rename_i g hg
            obtain ⟨ok1, _⟩ := residual_spec ok hv.1 hv.2 hg
            have ok2 := ok1.register (env := env)
              (nm := (w.alloc .input (w.name out)).name e) (x := e)
              ⟨hv.2.1, Nat.lt_succ_of_lt hv.2.2⟩
            split
            · exact ok2
            · exact ⟨ok2.pos, ok2.fresh, ok2.range, ok2.nodup, ok2.indep, ok2.recent, ok2.decomp,
                  ok2.root⟩

end OM
