import Verif.Model.ImplInherit
import Verif.Props.ImplAgain

/-!
# C91: subclasses can extend implicit components
-/

namespace OM

variable {genv : GEnv} {senv : SetupEnv} {o : SetOrder Ref}

/-- The calls of a `setup` are made on objects that exist. -/
def ValidCode (genv : GEnv) (senv : SetupEnv) (o : SetOrder Ref) : ImplCode → ImplComp → ImplInterface → Prop
  | .base, _, _ => True
  | .plain prog, c, _ => ValidFrom genv c.group.world (implOps prog)
  | .extend before sup after, c, i =>
    ValidFrom genv c.group.world (implOps before) ∧ ValidCode genv senv o sup (c.calls genv before) i ∧
      ∀ c1 r, runImpl genv senv o sup (c.calls genv before) i = (c1, .ok r) →
        ValidFrom genv c1.group.world (implOps after)

/-! ## The internal problem -/

theorem post_ok {c c' : ImplComp} {i i' : ImplInterface} {comps : List Ref}
    (h : c.post senv o i = (c', .ok (i', comps))) :
    let w := c.group.world.removeNonresiduals c.res
    let rs := (w.deps 0).filterMap fun x => c.res.find? fun r => r.1 == x
    (residualLoop w o senv.limit i c.constraints rs).2 = .ok i' ∧
    postSetup senv { c.group with world := w } = .ok (c'.group, comps) ∧ c'.res = c.res := by
  intro w rs
  simp only [ImplComp.post] at h
  split at h
  · cases (Prod.mk.inj h).2
  · rename_i i1 hi
    split at h
    · cases (Prod.mk.inj h).2
    · rename_i g comps' hp
      obtain ⟨rfl, h2⟩ := Prod.mk.inj h
      obtain ⟨rfl, rfl⟩ := Prod.mk.inj (Except.ok.inj h2)
      exact ⟨hi, hp, rfl⟩

theorem post_visits {c c' : ImplComp} {i i' : ImplInterface} {comps : List Ref}
    (h : c.post senv o i = (c', .ok (i', comps))) (hv : c.group.visits 0 ≤ 1) (hd : c.group.dependents 0 = []) :
    c'.group.visits 0 = 1 ∧ c'.group.dependents 0 = [] := by
  obtain ⟨_, hp, _⟩ := post_ok h
  obtain ⟨st, l, h1, _, h2⟩ := postSetup_inv hp
  rw [h2]
  exact sortExpressions_root h1 hv hd

theorem runImpl_visits (code : ImplCode) : ∀ {c c' : ImplComp} {i i' : ImplInterface} {comps : List Ref},
    runImpl genv senv o code c i = (c', .ok (i', comps)) → c.group.visits 0 ≤ 1 → c.group.dependents 0 = [] →
    c'.group.visits 0 = 1 ∧ c'.group.dependents 0 = [] := by
  induction code with
  | base => intro c c' i i' comps h hv hd; exact post_visits h hv hd
  | plain prog =>
    intro c c' i i' comps h hv hd
    exact post_visits (c := c.calls genv prog) h hv hd
  | extend before sup after ih =>
    intro c c' i i' comps h hv hd
    rw [runImpl] at h
    split at h
    · cases (Prod.mk.inj h).2
    · rename_i c1 i1 comps1 h1
      obtain ⟨hv1, hd1⟩ := ih (c := c.calls genv before) h1 hv hd
      exact post_visits (c := c1.calls genv after) h hv1.le hd1

/-! ## The variables of the component -/

theorem addInput_outs {i i' : ImplInterface} {out name : String} (h : i.addInput out name = .ok i') :
    i'.outs = i.outs := by
  unfold ImplInterface.addInput at h
  split at h
  · rw [Except.ok.inj h]
  · split at h
    · cases h
    · rw [← Except.ok.inj h]

theorem addInputs_outs {w : World} {out : String} (xs : List Ref) : ∀ {i i' : ImplInterface},
    xs.foldlM (fun c x => c.addInput out (w.name x)) i = .ok i' → i'.outs = i.outs := by
  induction xs with
  | nil => intro i i' h; rw [Except.ok.inj h]
  | cons x xs ih =>
    intro i i' h
    rw [List.foldlM_cons] at h
    cases h1 : i.addInput out (w.name x) with
    | error e => rw [h1] at h; cases h
    | ok i1 =>
      rw [h1] at h
      rw [ih h, addInput_outs h1]

theorem addResidual_outs {w : World} {limit : Nat} {i i' : ImplInterface} {r : Ref × String}
    (h : i.addResidual w o limit r = .ok i') : r.2 ∉ i.outs ∧ i'.outs = i.outs ++ [r.2] := by
  unfold ImplInterface.addResidual at h
  split at h
  · cases h
  · split at h
    · cases h
    · rename_i hn
      split at h
      · cases h
      · rename_i i1 h1
        refine ⟨fun h' => hn (List.mem_append_left _ h'), ?_⟩
        rw [← Except.ok.inj h]
        exact addInputs_outs _ h1

theorem residualLoop_outs {w : World} {limit : Nat} (rs : List (Ref × String)) : ∀ {i i' : ImplInterface}
    {names : List String}, (residualLoop w o limit i names rs).2 = .ok i' →
    (∀ r ∈ rs, r.2 ∉ i.outs) ∧ i'.outs = i.outs ++ rs.map Prod.snd := by
  induction rs with
  | nil => intro i i' names h; rw [← Except.ok.inj h]; simp
  | cons q rs ih =>
    intro i i' names h
    rw [residualLoop] at h
    split at h
    · cases h
    · rename_i i1 h1
      split at h
      · cases h
      · obtain ⟨a1, a2⟩ := addResidual_outs h1
        obtain ⟨b1, b2⟩ := ih h
        refine ⟨?_, by rw [b2, a2]; simp⟩
        intro r hr
        rcases List.mem_cons.1 hr with rfl | hr
        · exact a1
        · exact fun h' => b1 r hr (by rw [a2]; exact List.mem_append_left _ h')

/-- All outputs that the component has belong to residuals that are still there. -/
structure ImplComp.Held (c : ImplComp) (i : ImplInterface) : Prop where
  root : RootOut c.group.world
  nodes : ∀ x ∈ c.group.nodes, 0 < x
  outs : i.outs ≠ [] → ∃ x ∈ c.group.world.deps 0, ∃ r, (c.res.find? fun r => r.1 == x) = some r ∧ r.2 ∈ i.outs

theorem Held.calls {c : ImplComp} {i : ImplInterface} (h : c.Held i) {prog : List ImplStmt}
    (hv : ValidFrom genv c.group.world (implOps prog)) : (c.calls genv prog).Held i := by
  obtain ⟨h1, k1⟩ := run_kept (implOps prog) h.root hv
  refine ⟨h1, h.nodes, fun ho => ?_⟩
  obtain ⟨x, hx, r, hr, hi⟩ := h.outs ho
  refine ⟨x, (k1 x hx).1, r, ?_, hi⟩
  show (c.res ++ _).find? _ = _
  rw [List.find?_append, hr]
  rfl

theorem Held.post {c c' : ImplComp} {i i' : ImplInterface} {comps : List Ref} (h : c.Held i)
    (hp : c.post senv o i = (c', .ok (i', comps))) : i.outs = [] ∧ c'.Held i' := by
  obtain ⟨h1, h2, h3⟩ := post_ok hp
  obtain ⟨l1, l2⟩ := residualLoop_outs _ h1
  have hroot := removeNonresiduals_rootOut h.root c.res
  obtain ⟨p1, p2, _⟩ := postSetup_kept h2 hroot h.nodes
  have hnil : i.outs = [] := by
    by_contra hne
    obtain ⟨x, hx, r, hr, hi⟩ := h.outs hne
    refine l1 r (List.mem_filterMap.2 ⟨x, (remove_root x).2 ⟨hx, ?_⟩, hr⟩) hi
    have hrx : r.1 = x := by simpa using List.find?_some hr
    rw [← hrx]
    exact List.mem_map_of_mem (List.mem_of_find?_eq_some hr)
  refine ⟨hnil, p1, ?_, ?_⟩
  · obtain ⟨st, l, hs, _, he⟩ := postSetup_inv h2
    obtain ⟨_, _, hreg, _⟩ := sortExpressions_inv hs
    rw [he]
    intro x hx
    rcases registerNodes_sub hreg x hx with hx | hx
    · exact h.nodes x hx
    · obtain ⟨y, _, hy⟩ := Relation.TransGen.tail'_iff.1 hx
      exact hroot.deps y x hy
  · intro ho
    rw [l2, hnil, List.nil_append] at ho
    obtain ⟨n, hn⟩ := List.exists_mem_of_ne_nil _ ho
    obtain ⟨r, hr, rfl⟩ := List.mem_map.1 hn
    obtain ⟨x, hx, hf⟩ := List.mem_filterMap.1 hr
    refine ⟨x, by rw [p2]; exact hx, r, by rw [h3]; exact hf, ?_⟩
    rw [l2]
    exact List.mem_append_right _ (List.mem_map_of_mem hr)

theorem Held.run (code : ImplCode) : ∀ {c c' : ImplComp} {i i' : ImplInterface} {comps : List Ref}, c.Held i →
    ValidCode genv senv o code c i → runImpl genv senv o code c i = (c', .ok (i', comps)) → c'.Held i' := by
  induction code with
  | base => intro c c' i i' comps h _ hr; exact (Held.post h hr).2
  | plain prog => intro c c' i i' comps h hv hr; exact (Held.post (Held.calls h hv) hr).2
  | extend before sup after ih =>
    intro c c' i i' comps h hv hr
    rw [runImpl] at hr
    split at hr
    · cases (Prod.mk.inj hr).2
    · rename_i c1 i1 comps1 h1
      have h2 := ih (Held.calls h hv.1) hv.2.1 h1
      exact (Held.post (Held.calls h2 (hv.2.2 c1 _ h1)) hr).2

theorem held_init : (ImplComp.init genv).Held ⟨[], [], []⟩ :=
  ⟨(worldOk_init genv).rootOut, by intro x hx; (cases hx), fun h => absurd rfl h⟩

/-! ## The claim -/

/-- **C91** (partial): a class whose `setup` does not call `super().setup()` is set up as described in C89, whatever its
base classes are. Missing: `super().setup()`, see `c91_violated`. -/
theorem c91_plain_partial (prog : List ImplStmt) :
    runImpl genv senv o (.plain prog) (ImplComp.init genv) ⟨[], [], []⟩ =
      (ImplComp.init genv).setup genv senv o prog := rfl

/-- **C91, violated.** Whenever a `setup` that calls `super().setup()` ends without exception, the base class has no
outputs, and there is no component in the internal problem: none of the residuals is computed. -/
theorem c91_violated {before after : List ImplStmt} {sup : ImplCode} {c : ImplComp} {i : ImplInterface}
    {comps : List Ref} (hv : ValidCode genv senv o (.extend before sup after) (ImplComp.init genv) ⟨[], [], []⟩)
    (h : runImpl genv senv o (.extend before sup after) (ImplComp.init genv) ⟨[], [], []⟩ = (c, .ok (i, comps))) :
    comps = [] ∧ ∃ c1 i1 comps1, runImpl genv senv o sup ((ImplComp.init genv).calls genv before) ⟨[], [], []⟩ =
      (c1, .ok (i1, comps1)) ∧ i1.outs = [] := by
  rw [runImpl] at h
  split at h
  · cases (Prod.mk.inj h).2
  · rename_i c1 i1 comps1 h1
    obtain ⟨v1, d1⟩ := runImpl_visits sup h1 (Nat.zero_le _) rfl
    obtain ⟨_, hp, _⟩ := post_ok h
    refine ⟨(postSetup_stale hp v1 d1).1, c1, i1, comps1, h1, ?_⟩
    have h2 := Held.run sup (Held.calls held_init hv.1) hv.2.1 h1
    exact (Held.post (Held.calls h2 (hv.2.2 c1 _ h1)) h).1

/-- In particular a class that has outputs cannot be extended: every `setup` that calls the one of the class raises. -/
theorem c91_raises {before after : List ImplStmt} {sup : ImplCode} {c1 : ImplComp} {i1 : ImplInterface}
    {comps1 : List Ref} (hv : ValidCode genv senv o (.extend before sup after) (ImplComp.init genv) ⟨[], [], []⟩)
    (h : runImpl genv senv o sup ((ImplComp.init genv).calls genv before) ⟨[], [], []⟩ = (c1, .ok (i1, comps1)))
    (ho : i1.outs ≠ []) :
    ∃ e, (runImpl genv senv o (.extend before sup after) (ImplComp.init genv) ⟨[], [], []⟩).2 = .error e := by
  cases hr : runImpl genv senv o (.extend before sup after) (ImplComp.init genv) ⟨[], [], []⟩ with
  | mk c r =>
    cases r with
    | error e => exact ⟨e, rfl⟩
    | ok r =>
      obtain ⟨_, c2, i2, comps2, h2, h3⟩ := c91_violated hv hr
      rw [h] at h2
      obtain ⟨_, h4⟩ := Prod.mk.inj h2
      exact absurd ((Prod.mk.inj (Except.ok.inj h4)).1 ▸ h3) ho

/-- The component for the square root, extended by a subclass that adds nothing. -/
example : (runImpl progGEnv demoEnv demoEnv.ov (.extend [] (.plain rootProg) []) (ImplComp.init progGEnv)
    ⟨[], [], []⟩).2 = .error .valueError := by
  rfl

/-- The component for the square root, with `super().setup()` first: it has its variables and an empty internal problem. -/
example : (runImpl progGEnv demoEnv demoEnv.ov (.extend [] .base rootProg) (ImplComp.init progGEnv)
    ⟨[], [], []⟩).2 = .ok (⟨["y"], ["x"], [("y", "x"), ("y", "y")]⟩, []) := by
  rfl

/-- The hypotheses of `c91_raises` and of `c91_violated`. -/
example : ValidCode progGEnv demoEnv demoEnv.ov (.extend [] (.plain rootProg) []) (ImplComp.init progGEnv) ⟨[], [], []⟩ ∧
    (runImpl progGEnv demoEnv demoEnv.ov (.plain rootProg) ((ImplComp.init progGEnv).calls progGEnv []) ⟨[], [], []⟩).2 =
      .ok (⟨["y"], ["x"], [("y", "x"), ("y", "y")]⟩, [3, 4]) ∧
    ValidCode progGEnv demoEnv demoEnv.ov (.extend [] .base rootProg) (ImplComp.init progGEnv) ⟨[], [], []⟩ := by
  refine ⟨⟨trivial, root_group.valid, fun _ _ _ => trivial⟩, root_first, trivial, trivial, ?_⟩
  intro c1 r h
  have h0 : c1.group.world = (runImpl progGEnv demoEnv demoEnv.ov .base ((ImplComp.init progGEnv).calls progGEnv [])
      ⟨[], [], []⟩).1.group.world := by rw [h]
  rw [h0]
  refine ⟨trivial, trivial, ?_, ?_, ?_, trivial⟩
  · show ∀ a ∈ [2], 0 < a ∧ a < 3
    decide
  · show ∀ a ∈ [3, 1], 0 < a ∧ a < 4
    decide
  · show (0 < 2 ∧ 2 < 5) ∧ 0 < 4 ∧ 4 < 5
    decide

end OM
