import Verif.Lemmas.Group

/-! # Histories: acyclicity, persistence of edges and kinds -/

namespace OM
open Spec

/-- Calls that keep the graph acyclic: an indexed assignment `out[key] = e` must not use an `e` that
depends on `out`; `define` must not hit the recursion limit. All other calls are free. -/
def Op.Safe (env : GEnv) (w : World) : Op → Prop
  | .setItem out e _ => ¬ Reach w.deps e out
  | .define out e => (step env w (.define out e)).2 ≠ some .recursionError
  | _ => True

def SafeFrom (env : GEnv) : World → List Op → Prop
  | _, [] => True
  | w, op :: ops => op.Safe env w ∧ SafeFrom env (step env w op).1 ops

theorem WorldOk.no_edge_to_root {w : World} (ok : WorldOk w) (x : Ref) : 0 ∉ w.deps x := fun h =>
  absurd (ok.range x 0 h).1 (lt_irrefl _)

theorem WorldOk.no_edge_to_fresh {w : World} (ok : WorldOk w) (x : Ref) : w.next ∉ w.deps x :=
  fun h => absurd (ok.range x _ h).2 (lt_irrefl _)

theorem acyclic_addDeps {env : GEnv} {u : Ref} (ds : List Ref) : ∀ {w : World}, AcyclicG w.deps →
    (∀ x, u ∉ w.deps x) → u ∉ ds →
    AcyclicG (ds.foldl (fun w' d => w'.addDep env u d) w).deps := by
  induction ds with
  | nil => intro w h _ _; exact h
  | cons d ds ih =>
    intro w h hu hds
    rw [List.foldl_cons]
    have hd : d ≠ u := fun e => hds (e ▸ List.mem_cons_self)
    apply ih
    · exact acyclic_addDep h (not_reach_of_no_edge hd hu)
    · intro x hx
      rcases (mem_addDep env.o w.deps u d x u).1 hx with h' | ⟨_, h'⟩
      · exact hu x h'
      · exact hd h'.symm
    · exact fun h' => hds (List.mem_cons_of_mem _ h')

theorem acyclic_register {env : GEnv} {w : World} (hac : AcyclicG w.deps) (hno : ∀ x, 0 ∉ w.deps x)
    {nm : String} {x : Ref} (hx : 0 < x) : AcyclicG (w.register env nm x).1.deps := by
  unfold World.register
  split
  · exact hac
  · split
    · exact hac
    · exact acyclic_addDep hac (not_reach_of_no_edge hx.ne' hno)

theorem step_acyclic {env : GEnv} {w : World} (ok : WorldOk w) (hac : AcyclicG w.deps) {op : Op}
    (hv : op.Valid w) (hs : op.Safe env w) : AcyclicG (step env w op).1.deps := by
  have hpos := ok.pos
  cases op with
  | declareInput nm =>
    unfold step
    cases hr : w.recent with
    | none => exact hac
    | some s =>
      obtain ⟨h1, h2, _⟩ := ok.recent s hr
      exact acyclic_addDep (g := w.deps) hac
        (not_reach_of_no_edge (show s ≠ w.next by omega) ok.no_edge_to_fresh)
  | createIndep nm =>
    unfold step
    cases hr : w.recent with
    | none => exact acyclic_register (w := w.alloc .indep nm) hac ok.no_edge_to_root hpos
    | some s =>
      obtain ⟨h1, h2, h3⟩ := ok.recent s hr
      refine acyclic_register (w := (w.alloc .indep nm).addDep env s w.next) ?_ ?_ hpos
      · exact acyclic_addDep (g := w.deps) hac
          (not_reach_of_leaf (show w.next ≠ s by omega) (ok.fresh _ le_rfl))
      · intro x hx
        rcases (mem_addDep env.o w.deps s w.next x 0).1 hx with h | ⟨_, h⟩
        · exact ok.no_edge_to_root x h
        · omega
  | createOutput nm =>
    exact acyclic_addDep (g := w.deps) hac (not_reach_of_no_edge hpos.ne' ok.no_edge_to_root)
  | createImplicit nm => exact hac
  | combine args =>
    exact acyclic_addDeps (w := w.alloc .expr (env.autoName w.next)) args hac ok.no_edge_to_fresh
      (fun h => absurd (hv _ h).2 (lt_irrefl _))
  | getItem x =>
    unfold step
    simp only
    cases hd : w.decomp x with
    | some d =>
      simp only [hd]
      obtain ⟨h1, h2⟩ := ok.decomp x d hd
      exact acyclic_addDep (g := w.deps) hac
        (not_reach_of_no_edge (show d ≠ w.next by omega) ok.no_edge_to_fresh)
    | none =>
      simp only [Function.update_self]
      have hx := hv.2
      have h1 : AcyclicG (OM.addDep env.o w.deps w.next x) := acyclic_addDep hac
        (not_reach_of_no_edge (show x ≠ w.next by omega) ok.no_edge_to_fresh)
      refine acyclic_addDep (g := OM.addDep env.o w.deps w.next x) h1
        (not_reach_of_no_edge (show w.next ≠ w.next + 1 by omega) ?_)
      intro y hy
      rcases (mem_addDep env.o w.deps w.next x y (w.next + 1)).1 hy with h | ⟨_, h⟩
      · have := (ok.range y _ h).2; omega
      · omega
  | registerOutput nm x => exact acyclic_register hac ok.no_edge_to_root hv.1
  | addSubsystem nm =>
    unfold step
    simp only
    obtain ⟨h1, h2, _⟩ := WorldOk.addDeps (env := env) (w.deps 0) (ok.alloc .subsystem nm)
      (u := w.next) (Nat.lt_succ_self _) (by simp [World.alloc])
      (fun d hd => ⟨(ok.range 0 d hd).1, Nat.lt_succ_of_lt (ok.range 0 d hd).2⟩)
    refine acyclic_addDep ?_ (not_reach_of_no_edge hpos.ne' h1.no_edge_to_root)
    exact acyclic_addDeps (w := w.alloc .subsystem nm) (w.deps 0) hac ok.no_edge_to_fresh
      (ok.no_edge_to_fresh 0)
  | define out e =>
    have hs' : (step env w (.define out e)).2 ≠ some .recursionError := hs
    unfold step at hs' ⊢
    simp only at hs' ⊢
    split
    · exact hac
    · rename_i hk
      have hk' : w.kind out = .explicitOut := by simpa using hk
      rw [if_neg hk] at hs'
      split
      · exact hac
      · rename_i hne
        rw [if_neg hne] at hs'
        split
        · exact hac
        · rename_i hdf
          rw [if_neg hdf] at hs'
          split
          · rename_i hnone
            exfalso
            rw [hnone] at hs'
            exact hs' rfl
          · rename_i g hg
            obtain ⟨_, r, hl, hc, _⟩ := define_spec ok hv.1 hv.2 hk' hg
            exact acyclic_define ok.nodup hac r hl hc
  | setItem out e check =>
    unfold step
    simp only
    split
    · exact hac
    · have := acyclic_addDep (o := env.o) hac hs
      cases check with
      | some err => exact this
      | none => exact this
  | defineResidual out e =>
    unfold step
    simp only
    split
    · exact hac
    · split
      · exact hac
      · split
        · exact hac
        · split
          · exact hac
          · rename_i g hg
            obtain ⟨ok1, r, hl, _⟩ := residual_spec ok hv.1 hv.2 hg
            have h1 : AcyclicG g := acyclic_replaced ok.nodup hac r hl
            have h2 := acyclic_register (env := env)
              (w := { w.alloc .input (w.name out) with deps := g })
              (nm := (w.alloc .input (w.name out)).name e) h1 ok1.no_edge_to_root hv.2.1
            split
            · exact h2
            · exact h2

/-! ## What a call leaves in place -/

theorem World.register_keeps {env : GEnv} {w : World} {nm : String} {x : Ref} :
    (w.register env nm x).1.next = w.next ∧ (w.register env nm x).1.kind = w.kind ∧
      (w.register env nm x).1.recent = w.recent ∧ (w.register env nm x).1.decomp = w.decomp ∧
      (w.register env nm x).1.defined = w.defined ∧ (w.register env nm x).1.indexed = w.indexed ∧
      (∀ u, ∀ v ∈ w.deps u, v ∈ (w.register env nm x).1.deps u) ∧
      ((w.register env nm x).2 = none → x ∈ (w.register env nm x).1.deps 0) := by
  unfold World.register
  split
  · simp
  · split
    · simp
    · refine ⟨rfl, rfl, rfl, rfl, rfl, rfl, ?_, fun _ => ?_⟩
      · intro u v hv
        exact (mem_addDep env.o w.deps 0 x u v).2 (Or.inl hv)
      · exact (mem_addDep env.o w.deps 0 x 0 x).2 (Or.inr ⟨rfl, rfl⟩)

/-- The only way an edge to `v` disappears is `v.define` or `v.define_residual`. -/
def Op.Rewires (v : Ref) : Op → Prop
  | .define out _ => out = v
  | .defineResidual out _ => out = v
  | _ => False

theorem replaced_keeps {o : SetOrder Ref} {root leaf : Ref} {g g' : Graph} (hn : ∀ u, (g u).Nodup)
    (hr : Replaced o root leaf g g') {u v : Ref} (hv : v ∈ g u) (hne : v ≠ root) : v ∈ g' u := by
  rcases hr u with e | ⟨_, e⟩
  · rw [e]; exact hv
  · rw [e, mem_replaced o root leaf (hn u)]; exact Or.inl ⟨hv, hne⟩

theorem step_keeps {env : GEnv} {w : World} (ok : WorldOk w) {op : Op} (hv : op.Valid w) :
    w.next ≤ (step env w op).1.next ∧
    (∀ u, u < w.next → (step env w op).1.kind u = w.kind u) ∧
    (∀ u v, v ∈ w.deps u → ¬ op.Rewires v → v ∈ (step env w op).1.deps u) ∧
    (∀ v ∈ w.deps 0, v ∈ (step env w op).1.deps 0) ∧
    (∀ u, w.defined u = true → (step env w op).1.defined u = true) := by
  have hpos := ok.pos
  have halloc : ∀ (k : Kind) (nm : String) (u : Ref), u < w.next →
      (w.alloc k nm).kind u = w.kind u := by
    intro k nm u hu
    simp only [World.alloc, Function.update_of_ne (show u ≠ w.next by omega)]
  have hadd : ∀ (g : Graph) (a b u v : Ref), v ∈ g u → v ∈ OM.addDep env.o g a b u :=
    fun g a b u v h => (mem_addDep env.o g a b u v).2 (Or.inl h)
  cases op with
  | declareInput nm =>
    unfold step
    cases hr : w.recent with
    | none => exact ⟨Nat.le_succ _, halloc _ _, fun _ _ h _ => h, fun _ h => h, fun _ h => h⟩
    | some s =>
      exact ⟨Nat.le_succ _, halloc .input nm, fun u v h _ => hadd w.deps w.next s u v h,
        fun v h => hadd w.deps w.next s 0 v h, fun _ h => h⟩
  | createIndep nm =>
    unfold step
    cases hr : w.recent with
    | none =>
      obtain ⟨h1, h2, _, _, h5, _, h7, _⟩ := World.register_keeps (env := env)
        (w := w.alloc .indep nm) (nm := nm) (x := w.next)
      refine ⟨?_, ?_, ?_, ?_, ?_⟩
      · rw [h1]; exact Nat.le_succ _
      · intro u hu; rw [h2]; exact halloc _ _ u hu
      · exact fun u v h _ => h7 u v h
      · exact fun v h => h7 0 v h
      · intro u hu; rw [h5]; exact hu
    | some s =>
      obtain ⟨h1, h2, _, _, h5, _, h7, _⟩ := World.register_keeps (env := env)
        (w := (w.alloc .indep nm).addDep env s w.next) (nm := nm) (x := w.next)
      refine ⟨?_, ?_, ?_, ?_, ?_⟩
      · rw [h1]; exact Nat.le_succ _
      · intro u hu; rw [h2]; exact halloc .indep nm u hu
      · exact fun u v h _ => h7 u v (hadd w.deps s w.next u v h)
      · exact fun v h => h7 0 v (hadd w.deps s w.next 0 v h)
      · intro u hu; rw [h5]; exact hu
  | createOutput nm =>
    exact ⟨Nat.le_succ _, halloc .explicitOut nm, fun u v h _ => hadd w.deps 0 w.next u v h,
      fun v h => hadd w.deps 0 w.next 0 v h, fun _ h => h⟩
  | createImplicit nm =>
    exact ⟨Nat.le_succ _, halloc _ _, fun _ _ h _ => h, fun _ h => h, fun _ h => h⟩
  | combine args =>
    obtain ⟨_, h2, h3, _, _, h6, _, _, h9⟩ := WorldOk.addDeps (env := env) args
      (ok.alloc .expr (env.autoName w.next)) (u := w.next) (Nat.lt_succ_self _)
      (by simp [World.alloc]) (fun d hd => ⟨(hv d hd).1, Nat.lt_succ_of_lt (hv d hd).2⟩)
    refine ⟨?_, ?_, ?_, ?_, ?_⟩
    · exact le_trans (Nat.le_succ w.next) (le_of_eq h2.symm)
    · intro u hu
      exact (congrFun h3 u).trans (halloc _ _ u hu)
    · intro u v h _; exact (h9 u v).2 (Or.inl h)
    · intro v h; exact (h9 0 v).2 (Or.inl h)
    · intro u hu
      exact (congrFun h6 u).trans hu
  | getItem x =>
    unfold step
    simp only
    cases hd : w.decomp x with
    | some d =>
      simp only [hd]
      exact ⟨Nat.le_succ _, halloc .item (env.autoName w.next), fun u v h _ => hadd w.deps w.next d u v h,
        fun v h => hadd w.deps w.next d 0 v h, fun _ h => h⟩
    | none =>
      simp only [Function.update_self]
      refine ⟨?_, ?_, ?_, ?_, fun _ h => h⟩
      · show w.next ≤ w.next + 1 + 1
        omega
      · intro u hu
        show Function.update (Function.update w.kind w.next .decomp) (w.next + 1) .item u = _
        rw [Function.update_of_ne (by omega), Function.update_of_ne (by omega)]
      · intro u v h _
        exact hadd _ (w.next + 1) w.next u v (hadd w.deps w.next x u v h)
      · intro v h
        exact hadd _ (w.next + 1) w.next 0 v (hadd w.deps w.next x 0 v h)
  | registerOutput nm x =>
    obtain ⟨h1, h2, _, _, h5, _, h7, _⟩ := World.register_keeps (env := env) (w := w) (nm := nm)
      (x := x)
    refine ⟨?_, ?_, fun u v h _ => h7 u v h, fun v h => h7 0 v h, ?_⟩
    · show w.next ≤ (w.register env nm x).1.next
      rw [h1]
    · intro u _
      show (w.register env nm x).1.kind u = _
      rw [h2]
    · intro u hu
      show (w.register env nm x).1.defined u = _
      rw [h5]; exact hu
  | addSubsystem nm =>
    unfold step
    simp only
    obtain ⟨_, h2, h3, _, _, h6, _, _, h9⟩ := WorldOk.addDeps (env := env) (w.deps 0)
      (ok.alloc .subsystem nm) (u := w.next) (Nat.lt_succ_self _) (by simp [World.alloc])
      (fun d hd => ⟨(ok.range 0 d hd).1, Nat.lt_succ_of_lt (ok.range 0 d hd).2⟩)
    refine ⟨?_, ?_, ?_, ?_, ?_⟩
    · exact le_trans (Nat.le_succ w.next) (le_of_eq h2.symm)
    · intro u hu
      exact (congrFun h3 u).trans (halloc _ _ u hu)
    · intro u v h _; exact hadd _ 0 w.next u v ((h9 u v).2 (Or.inl h))
    · intro v h; exact hadd _ 0 w.next 0 v ((h9 0 v).2 (Or.inl h))
    · intro u hu
      exact (congrFun h6 u).trans hu
  | define out e =>
    unfold step
    simp only
    split
    · exact ⟨le_rfl, fun _ _ => rfl, fun _ _ h _ => h, fun _ h => h, fun _ h => h⟩
    · rename_i hk
      have hk' : w.kind out = .explicitOut := by simpa using hk
      split
      · exact ⟨le_rfl, fun _ _ => rfl, fun _ _ h _ => h, fun _ h => h, fun _ h => h⟩
      · split
        · exact ⟨le_rfl, fun _ _ => rfl, fun _ _ h _ => h, fun _ h => h, fun _ h => h⟩
        · have hdef : ∀ u, w.defined u = true → Function.update w.defined out true u = true := by
            intro u hu
            by_cases h : u = out
            · rw [h, Function.update_self]
            · rw [Function.update_of_ne h]; exact hu
          split
          · exact ⟨Nat.le_succ _, halloc .input (w.name out), fun u v h _ => hadd w.deps out e u v h,
              fun v h => hadd w.deps out e 0 v h, hdef⟩
          · rename_i g hg
            obtain ⟨_, r, _, _, h0⟩ := define_spec ok hv.1 hv.2 hk' hg
            refine ⟨Nat.le_succ _, halloc .input (w.name out), ?_, ?_, hdef⟩
            · intro u v h hrw
              exact replaced_keeps (fun u => nodup_addDep env.o w.deps out e u (ok.nodup u)) r
                (hadd w.deps out e u v h) (fun e' => hrw e'.symm)
            · intro v h
              show v ∈ g 0
              rw [h0]; exact h
  | setItem out e check =>
    unfold step
    simp only
    split
    · exact ⟨le_rfl, fun _ _ => rfl, fun _ _ h _ => h, fun _ h => h, fun _ h => h⟩
    · cases check with
      | some err =>
        exact ⟨le_rfl, fun _ _ => rfl, fun u v h _ => hadd w.deps out e u v h,
          fun v h => hadd w.deps out e 0 v h, fun _ h => h⟩
      | none =>
        refine ⟨le_rfl, fun _ _ => rfl, fun u v h _ => hadd w.deps out e u v h,
          fun v h => hadd w.deps out e 0 v h, ?_⟩
        intro u hu
        show Function.update w.defined out true u = true
        by_cases h : u = out
        · rw [h, Function.update_self]
        · rw [Function.update_of_ne h]; exact hu
  | defineResidual out e =>
    unfold step
    simp only
    split
    · exact ⟨le_rfl, fun _ _ => rfl, fun _ _ h _ => h, fun _ h => h, fun _ h => h⟩
    · split
      · exact ⟨le_rfl, fun _ _ => rfl, fun _ _ h _ => h, fun _ h => h, fun _ h => h⟩
      · split
        · exact ⟨le_rfl, fun _ _ => rfl, fun _ _ h _ => h, fun _ h => h, fun _ h => h⟩
        · split
          · exact ⟨Nat.le_succ _, halloc .input (w.name out), fun _ _ h _ => h, fun _ h => h, fun _ h => h⟩
          · rename_i g hg
            obtain ⟨ok1, r, hl, h0⟩ := residual_spec ok hv.1 hv.2 hg
            obtain ⟨k1, k2, _, _, k5, _, k7, _⟩ := World.register_keeps (env := env)
              (w := { w.alloc .input (w.name out) with deps := g })
              (nm := (w.alloc .input (w.name out)).name e) (x := e)
            have e1 : ∀ u v, v ∈ w.deps u → ¬ (Op.defineResidual out e).Rewires v →
                v ∈ (World.register env { w.alloc .input (w.name out) with deps := g }
                  ((w.alloc .input (w.name out)).name e) e).1.deps u := fun u v h hrw =>
              k7 u v (replaced_keeps ok.nodup r h (fun e' => hrw e'.symm))
            have e2 : ∀ v ∈ w.deps 0,
                v ∈ (World.register env { w.alloc .input (w.name out) with deps := g }
                  ((w.alloc .input (w.name out)).name e) e).1.deps 0 := fun v h =>
              k7 0 v (by show v ∈ g 0; rw [h0]; exact h)
            split
            · refine ⟨?_, ?_, e1, e2, ?_⟩
              · rw [k1]; exact Nat.le_succ _
              · intro u hu; rw [k2]; exact halloc .input (w.name out) u hu
              · intro u hu; rw [k5]; exact hu
            · refine ⟨?_, ?_, e1, e2, ?_⟩
              · show w.next ≤ (World.register _ _ _ _).1.next
                rw [k1]; exact Nat.le_succ _
              · intro u hu
                show (World.register _ _ _ _).1.kind u = _
                rw [k2]; exact halloc .input (w.name out) u hu
              · intro u hu
                show Function.update (World.register _ _ _ _).1.defined out true u = true
                by_cases h : u = out
                · rw [h, Function.update_self]
                · rw [Function.update_of_ne h, k5]; exact hu

/-- Explicit outputs are always outputs of the group. -/
def OutsOk (w : World) : Prop := ∀ u, 0 < u → u < w.next → w.kind u = .explicitOut → u ∈ w.deps 0

theorem step_outs {env : GEnv} {w : World} (ok : WorldOk w) (ho : OutsOk w) {op : Op}
    (hv : op.Valid w) : OutsOk (step env w op).1 := by
  obtain ⟨_, hk, _, h0, _⟩ := step_keeps (env := env) ok hv
  intro u hu hlt hke
  by_cases hold : u < w.next
  · exact h0 u (ho u hu hold (by rw [← hk u hold]; exact hke))
  · -- a new object that is an explicit output was made by `create_output`
    have hnew : ∀ k nm, k ≠ Kind.explicitOut → u < w.next + 1 →
        (w.alloc k nm).kind u = .explicitOut → False := by
      intro k nm hkne hlt' hk'
      have : u = w.next := by omega
      subst this
      simp only [World.alloc, Function.update_self] at hk'
      exact hkne hk'
    cases op with
    | createOutput nm =>
      have hlt' : u < w.next + 1 := hlt
      have : u = w.next := by omega
      subst this
      exact (mem_addDep env.o w.deps 0 w.next 0 w.next).2 (Or.inr ⟨rfl, rfl⟩)
    | declareInput nm =>
      exfalso
      unfold step at hlt hke
      cases hr : w.recent with
      | none => rw [hr] at hlt hke; exact hnew .input nm (by decide) hlt hke
      | some s => rw [hr] at hlt hke; exact hnew .input nm (by decide) hlt hke
    | createIndep nm =>
      exfalso
      unfold step at hlt hke
      cases hr : w.recent with
      | none =>
        rw [hr] at hlt hke
        simp only at hlt hke
        rw [World.register_keeps.1] at hlt
        rw [World.register_keeps.2.1] at hke
        exact hnew .indep nm (by decide) hlt hke
      | some s =>
        rw [hr] at hlt hke
        simp only at hlt hke
        rw [World.register_keeps.1] at hlt
        rw [World.register_keeps.2.1] at hke
        exact hnew .indep nm (by decide) hlt hke
    | createImplicit nm => exact (hnew .implicitOut nm (by decide) hlt hke).elim
    | combine args =>
      obtain ⟨_, h2, h3, _⟩ := WorldOk.addDeps (env := env) args
        (ok.alloc .expr (env.autoName w.next)) (u := w.next) (Nat.lt_succ_self _)
        (by simp [World.alloc]) (fun d hd => ⟨(hv d hd).1, Nat.lt_succ_of_lt (hv d hd).2⟩)
      exact (hnew .expr _ (by decide) (lt_of_lt_of_eq hlt h2) ((congrFun h3 u).symm.trans hke)).elim
    | getItem x =>
      exfalso
      unfold step at hlt hke
      simp only at hlt hke
      cases hd : w.decomp x with
      | some d =>
        simp only [hd] at hlt hke
        exact hnew .item (env.autoName w.next) (by decide) hlt hke
      | none =>
        simp only [hd, Function.update_self] at hlt hke
        have hlt' : u < w.next + 1 + 1 := hlt
        have hke' : Function.update (Function.update w.kind w.next .decomp) (w.next + 1) .item u =
          .explicitOut := hke
        by_cases h1 : u = w.next + 1
        · rw [h1, Function.update_self] at hke'
          exact absurd hke' (by decide)
        · have h2 : u = w.next := by omega
          rw [Function.update_of_ne h1, h2, Function.update_self] at hke'
          exact absurd hke' (by decide)
    | registerOutput nm x =>
      unfold step at hlt
      rw [World.register_keeps.1] at hlt
      exact absurd hlt hold
    | addSubsystem nm =>
      obtain ⟨_, h2, h3, _⟩ := WorldOk.addDeps (env := env) (w.deps 0)
        (ok.alloc .subsystem nm) (u := w.next) (Nat.lt_succ_self _) (by simp [World.alloc])
        (fun d hd => ⟨(ok.range 0 d hd).1, Nat.lt_succ_of_lt (ok.range 0 d hd).2⟩)
      exact (hnew .subsystem nm (by decide) (lt_of_lt_of_eq hlt h2)
        ((congrFun h3 u).symm.trans hke)).elim
    | define out e =>
      exfalso
      unfold step at hlt hke
      simp only at hlt hke
      split at hlt
      · exact hold hlt
      · rename_i c1
        rw [if_neg c1] at hke
        split at hlt
        · exact hold hlt
        · rename_i c2
          rw [if_neg c2] at hke
          split at hlt
          · exact hold hlt
          · rename_i c3
            rw [if_neg c3] at hke
            split at hlt
            · rename_i c4
              rw [c4] at hke
              exact hnew .input (w.name out) (by decide) hlt hke
            · rename_i c4
              rw [c4] at hke
              exact hnew .input (w.name out) (by decide) hlt hke
    | setItem out e check =>
      exfalso
      unfold step at hlt
      simp only at hlt
      split at hlt
      · exact hold hlt
      · cases check with
        | some err => exact hold hlt
        | none => exact hold hlt
    | defineResidual out e =>
      exfalso
      unfold step at hlt hke
      simp only at hlt hke
      split at hlt
      · exact hold hlt
      · rename_i c1
        rw [if_neg c1] at hke
        split at hlt
        · exact hold hlt
        · rename_i c2
          rw [if_neg c2] at hke
          split at hlt
          · exact hold hlt
          · rename_i c3
            rw [if_neg c3] at hke
            split at hlt
            · rename_i c4
              rw [c4] at hke
              exact hnew .input (w.name out) (by decide) hlt hke
            · rename_i g c4
              rw [c4] at hke
              simp only at hke
              split at hlt
              · rename_i c5
                rw [c5] at hke
                simp only at hke
                rw [World.register_keeps.1] at hlt
                rw [World.register_keeps.2.1] at hke
                exact hnew .input (w.name out) (by decide) hlt hke
              · rename_i c5
                rw [c5] at hke
                simp only at hke
                rw [World.register_keeps.1] at hlt
                rw [World.register_keeps.2.1] at hke
                exact hnew .input (w.name out) (by decide) hlt hke

end OM
