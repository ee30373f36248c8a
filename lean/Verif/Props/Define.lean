import Verif.Props.Group
import Verif.Lemmas.Resetup

/-!
# Defining and registering outputs (C23, C24, C25, C52)
-/

namespace OM
open Spec

/-! ## C52: `define` -/

/-- **C52.** After a successful `out.define(e)`: nothing reachable from `out` uses `out`; there is one
new object, an input without dependencies carrying `out`'s name; every expression reachable from `out`
that used `out` now uses that input in its place, and all other dependencies, also of all other
expressions, are as before (`out` itself has gained `e`). -/
theorem c52_define {genv : GEnv} {w : World} (ok : WorldOk w) {out e : Ref}
    (hv : (Op.define out e).Valid w) (hs : (step genv w (.define out e)).2 = none) :
    (∀ x, Reach (step genv w (.define out e)).1.deps out x →
      out ∉ (step genv w (.define out e)).1.deps x) ∧
    (step genv w (.define out e)).1.kind w.next = .input ∧
    (step genv w (.define out e)).1.name w.next = w.name out ∧
    (step genv w (.define out e)).1.deps w.next = [] ∧
    (∀ u x, x ∈ (step genv w (.define out e)).1.deps u ↔
      ((x ∈ w.deps u ∨ (u = out ∧ x = e)) ∧ ¬ (x = out ∧ (u = out ∨ Reach w.deps out u ∨ Reach w.deps e u))) ∨
      (x = w.next ∧ out ∈ w.deps u ∧ (u = out ∨ Reach w.deps out u ∨ Reach w.deps e u))) := by
  unfold step at hs ⊢
  simp only at hs ⊢
  split at hs
  · cases hs
  · rename_i c1
    have hk' : w.kind out = .explicitOut := by simpa using c1
    rw [if_neg c1]
    split at hs
    · cases hs
    · rename_i c2
      rw [if_neg c2]
      split at hs
      · cases hs
      · rename_i c3
        rw [if_neg c3]
        split at hs
        · cases hs
        · rename_i g hg
          have hg' : replaceLeafNodes genv.o genv.fuel out out w.next
            (OM.addDep genv.o w.deps out e) = some g := hg
          obtain ⟨_, r, hl, hclean, _⟩ := define_spec ok hv.1 hv.2 hk' hg'
          have hn := fun u => nodup_addDep genv.o w.deps out e u (ok.nodup u)
          have hne : w.next ≠ out := by have := hv.1.2; omega
          have hleaf : OM.addDep genv.o w.deps out e w.next = [] := by
            rw [addDep_of_ne _ _ _ hne]; exact ok.fresh _ le_rfl
          obtain ⟨_, _, _, _, hP⟩ := replaceLeafNodes_spec hne hn hleaf
            ((ok.addDep (env := genv) hv.1.2 hv.2 (by rw [hk']; decide)).finite out) hg'
          -- reachability from `out` in the graph with the new edge
          have hreach : ∀ u, Reach (OM.addDep genv.o w.deps out e) out u ↔
              (u = out ∨ Reach w.deps out u ∨ Reach w.deps e u) := by
            intro u
            constructor
            · intro h
              rcases Relation.reflTransGen_iff_eq_or_transGen.1 h with h | h
              · exact Or.inl h
              · rcases needs_addDep h with h | ⟨_, h⟩
                · exact Or.inr (Or.inl h.to_reflTransGen)
                · exact Or.inr (Or.inr h)
            · have hmono : ∀ a b, Reach w.deps a b → Reach (OM.addDep genv.o w.deps out e) a b :=
                fun a b h => Relation.ReflTransGen.mono (fun x y hxy =>
                  (mem_addDep genv.o w.deps out e x y).2 (Or.inl hxy)) _ _ h
              rintro (rfl | h | h)
              · exact Relation.ReflTransGen.refl
              · exact hmono _ _ h
              · exact Relation.ReflTransGen.head
                  ((mem_addDep genv.o w.deps out e out e).2 (Or.inr ⟨rfl, rfl⟩)) (hmono _ _ h)
          have hreach' : ∀ u, Reach (OM.addDep genv.o w.deps out e) out u → Reach g out u := by
            intro u h
            induction h with
            | refl => exact Relation.ReflTransGen.refl
            | tail _ hxy ih =>
              rename_i x y _
              by_cases hy : y = out
              · subst hy; exact Relation.ReflTransGen.refl
              · exact ih.tail (replaced_keeps hn r hxy hy)
          refine ⟨hclean, ?_, ?_, hl, ?_⟩
          · show Function.update w.kind w.next .input w.next = _
            simp
          · show Function.update w.name w.next (w.name out) w.next = _
            simp
          · intro u x
            show x ∈ g u ↔ _
            rw [← hreach u]
            by_cases hul : u = w.next
            · subst hul
              rw [hl, ok.fresh _ le_rfl]
              simp [hne]
            have hadd := mem_addDep genv.o w.deps out e u x
            by_cases hu : Reach (OM.addDep genv.o w.deps out e) out u
            · have hno : out ∉ g u := hclean u (hreach' u hu)
              have houtdep : out ∈ OM.addDep genv.o w.deps out e u ↔ out ∈ w.deps u := by
                rw [mem_addDep]
                constructor
                · rintro (h | ⟨_, h⟩)
                  · exact h
                  · exact absurd h.symm c2
                · exact Or.inl
              rcases r u with h | ⟨hr, h⟩
              · have hnd : out ∉ w.deps u := fun hh => hno (by rw [h]; exact houtdep.2 hh)
                rw [h, hadd]
                simp only [hu, and_true, hnd, false_and, and_false, or_false]
                constructor
                · intro hx
                  refine ⟨hx, ?_⟩
                  rintro rfl
                  rcases hx with hx | ⟨_, hx⟩
                  · exact hnd hx
                  · exact c2 hx.symm
                · exact And.left
              · rw [h, mem_replaced genv.o out w.next (hn u), hadd]
                simp only [hu, and_true, houtdep.1 hr]
            · rw [hP (fun y => Reach (OM.addDep genv.o w.deps out e) out y ∨ y = w.next)
                (Or.inl Relation.ReflTransGen.refl) (Or.inr rfl) (Or.inl Relation.ReflTransGen.refl) ?_ u
                ?_, hadd]
              · simp [hu]
              · rintro a (ha | rfl) y hy
                · exact Or.inl (ha.tail hy)
                · rw [hleaf] at hy; simp at hy
              · rintro (h | rfl)
                · exact hu h
                · exact hul rfl

theorem acc_of_chainsLt {g : Graph} (n : Nat) : ∀ u, ChainsLt g u n → Acc (fun v u => v ∈ g u) u := by
  induction n with
  | zero => intro u h; exact absurd (h [] (List.IsChain.singleton u)) (Nat.not_lt_zero _)
  | succ n ih =>
    intro u h
    constructor
    intro v hv
    refine ih v fun l hl => ?_
    have := h (v :: l) (List.isChain_cons_cons.2 ⟨hv, hl⟩)
    simp only [List.length_cons] at this
    omega

theorem WorldOk.acc {w : World} (ok : WorldOk w) (hac : AcyclicG w.deps) (u : Ref) :
    Acc (fun v u => v ∈ w.deps u) u := by
  refine acc_of_chainsLt (u :: List.range w.next).length u
    (chainsLt_of_acyclic (u :: List.range w.next) (fun v hv => ?_) fun v _ => hac v)
  rcases Relation.ReflTransGen.cases_tail hv with rfl | ⟨c, _, hc⟩
  · exact List.mem_cons_self
  · exact List.mem_cons_of_mem _ (List.mem_range.2 (ok.range c v hc).2)

/-- `define` finishes if the recursion limit is high enough and the graph is acyclic. -/
theorem c52_define_finishes {genv : GEnv} {w : World} (ok : WorldOk w) (hac : AcyclicG w.deps)
    {out e : Ref} (hv : (Op.define out e).Valid w) (hk : w.kind out = .explicitOut) (hne : e ≠ out)
    (hd : w.defined out = false) :
    ∃ n, (step { genv with fuel := n } w (.define out e)).2 = none := by
  have hneo : w.next ≠ out := by have := hv.1.2; omega
  have hleaf : OM.addDep genv.o w.deps out e w.next = [] := by
    rw [addDep_of_ne _ _ _ hneo]; exact ok.fresh _ le_rfl
  obtain ⟨univ, huniv⟩ := (ok.addDep (env := genv) hv.1.2 hv.2 (by rw [hk]; decide)).finite out
  have hacc1 : ∀ u, u ≠ out → AccNo out (OM.addDep genv.o w.deps out e) u := by
    intro u
    have := ok.acc hac u
    induction this with
    | intro u _ ih =>
      intro hu
      constructor
      rintro v ⟨hv, hvo⟩
      rw [addDep_of_ne _ _ _ hu] at hv
      exact ih v hv hvo
  have hacc : AccNo out (OM.addDep genv.o w.deps out e) out := ⟨_, fun v hv => hacc1 v hv.2⟩
  obtain ⟨n, h', hn⟩ := replaceScan_total genv.o out w.next hneo univ _
    (DepHeap.ofGraph (OM.addDep genv.o w.deps out e))
    (heapOk_ofGraph out w.next univ (fun u => nodup_addDep genv.o w.deps out e u (ok.nodup u)) huniv hleaf)
    le_rfl hacc out hacc 0 0 le_rfl
  refine ⟨n, ?_⟩
  unfold step
  simp only
  rw [if_neg (by rw [hk]; simp), if_neg hne, if_neg (by rw [hd]; decide)]
  have hr : replaceLeafNodes genv.o n out out w.next (OM.addDep genv.o w.deps out e) =
      some h'.deps := by
    unfold replaceLeafNodes
    rw [hn]; rfl
  have hr' : replaceLeafNodes genv.o n out out
      (World.addDep { genv with fuel := n }
        { w with defined := Function.update w.defined out true } out e).next
      ((World.addDep { genv with fuel := n }
        { w with defined := Function.update w.defined out true } out e).alloc .input
          (w.name out)).deps = some h'.deps := hr
  rw [hr']

/-! ## C23: one definition -/

/-- **C23**, what holds: after a successful `define`, every other `define` raises; after a successful
indexed assignment, `define` raises — whatever calls come in between. -/
theorem c23_no_redefinition_partial {genv : GEnv} {w : World} (ok : WorldOk w) {op : Op}
    {ops : List Op} {out e : Ref} (hv : ValidFrom genv w (op :: ops)) (hs : op.Safe genv w)
    (hop : op.DefinesOut out) (hsucc : (step genv w op).2 = none) (hk : w.kind out = .explicitOut)
    (hlt : out < w.next) :
    (step genv (run genv w (op :: ops)) (.define out e)).2 = some .valueError ∧
    (step genv (run genv w (op :: ops)) (.define out e)).1 = run genv w (op :: ops) := by
  have h1 : (step genv w op).1.defined out = true := (step_defined hs out).2 (Or.inr ⟨hop, hsucc⟩)
  have h2 := run_defined ops (step_ok (env := genv) ok hv.1) hv.2 out h1
  have h3 : (run genv w (op :: ops)).kind out = .explicitOut := by
    rw [run_kind (op :: ops) ok hv out hlt]; exact hk
  rw [← run_cons] at h2
  unfold step
  simp only [h3, h2]
  by_cases he : e = out <;> simp [he]

/-- **C23, refuted.** After a successful `define`, an indexed assignment whose key passes the checks
still succeeds (and replaces the component that the definition would have given). -/
theorem c23_assignment_after_define {genv : GEnv} {w : World} (ok : WorldOk w) {out e e' : Ref}
    (hv : (Op.define out e).Valid w) (hs : (step genv w (.define out e)).2 = none) :
    (step genv (step genv w (.define out e)).1 (.setItem out e' none)).2 = none := by
  have hk : w.kind out = .explicitOut := by
    by_contra h
    unfold step at hs
    simp only at hs
    rw [if_pos h] at hs
    cases hs
  have hk' := (step_keeps (env := genv) ok hv).2.1 out hv.1.2
  generalize (step genv w (.define out e)).1 = w1 at hk'
  unfold step
  simp only
  rw [hk', hk]
  simp

/-! ## C24: registration -/

/-- **C24.** `register_output` after any history: `TypeError` for an input; `ValueError` for anything
that an earlier call made an output of the group; otherwise it succeeds. -/
theorem c24_register_outcome {genv : GEnv} {ops : List Op} {nm : String} {x : Ref}
    (hv : ValidFrom genv (World.init genv) ops) :
    ((final genv ops).kind x = .input →
      step genv (final genv ops) (.registerOutput nm x) = (final genv ops, some .typeError)) ∧
    (MadeOutput genv (World.init genv) x ops →
      step genv (final genv ops) (.registerOutput nm x) = (final genv ops, some .valueError)) ∧
    ((final genv ops).kind x ≠ .input → ¬ MadeOutput genv (World.init genv) x ops →
      (step genv (final genv ops) (.registerOutput nm x)).2 = none ∧
      (step genv (final genv ops) (.registerOutput nm x)).1.name x = nm ∧
      (∀ y, y ≠ x → (step genv (final genv ops) (.registerOutput nm x)).1.name y =
        (final genv ops).name y) ∧
      (∀ u y, y ∈ (step genv (final genv ops) (.registerOutput nm x)).1.deps u ↔
        y ∈ (final genv ops).deps u ∨ (u = 0 ∧ y = x))) := by
  have hiff := run_root_iff (env := genv) x ops (worldOk_init genv) hv
  have h0 : x ∉ (World.init genv).deps 0 := by simp [World.init]
  have hmem : x ∈ (final genv ops).deps 0 ↔ MadeOutput genv (World.init genv) x ops := by
    rw [hiff]; simp [h0]
  refine ⟨fun h => ?_, fun h => ?_, fun h1 h2 => ?_⟩
  · show World.register _ _ _ _ = _
    unfold World.register
    rw [if_pos h]
  · have hx := hmem.2 h
    have hk := run_root_kind ops (worldOk_init genv) hv (by simp [World.init]) x hx
    show World.register _ _ _ _ = _
    unfold World.register
    rw [if_neg hk, if_pos hx]
  · have hx : x ∉ (final genv ops).deps 0 := fun h => h2 (hmem.1 h)
    have heq : step genv (final genv ops) (.registerOutput nm x) =
        (World.addDep genv { final genv ops with name := Function.update (final genv ops).name x nm } 0 x,
          none) := by
      show World.register _ _ _ _ = _
      unfold World.register
      rw [if_neg h1, if_neg hx]
    rw [heq]
    refine ⟨rfl, by simp [World.addDep], fun y hy => by simp [World.addDep, hy], fun u y => ?_⟩
    exact mem_addDep genv.o _ 0 x u y

/-! ## C25: names -/

theorem registerNodesChecked_eq (id : Ref → String) (g : Graph) (S : Ref → Prop)
    (hid : ∀ x y, S x → S y → id x = id y → x = y) (hS : ∀ x, S x → ∀ y ∈ g x, S y) (limit : Nat) :
    ∀ (u : Ref) (nodes : List Ref), (∀ y ∈ g u, S y) → (∀ x ∈ nodes, S x) →
      registerNodesChecked id g limit u nodes =
      match registerNodes g limit u nodes with
      | none => .error .recursionError
      | some l => .ok l := by
  induction limit with
  | zero => intro u nodes _ _; rfl
  | succ limit ih =>
    intro u nodes hu hns
    unfold registerNodesChecked registerNodes
    generalize g u = ds at hu ⊢
    induction ds generalizing nodes with
    | nil => rfl
    | cons v ds ihd =>
      rw [List.foldlM_cons, List.foldlM_cons]
      have hSv := hu v List.mem_cons_self
      by_cases hv : v ∈ nodes
      · have : nodes.find? (fun x => id x == id v) = some v := by
          obtain ⟨as, bs, e, hn⟩ := List.append_of_mem hv |>.elim fun s h => h.elim fun t h =>
            (List.eq_append_cons_of_mem hv)
          rw [List.find?_eq_some_iff_append]
          refine ⟨by simp, as, bs, e, fun a ha => ?_⟩
          have hSa := hns a (by rw [e]; simp [ha])
          simp only [Bool.not_eq_true', beq_eq_false_iff_ne]
          intro h
          exact hn (hid a v hSa hSv h ▸ ha)
        rw [this]
        simp only [if_pos hv, if_true]
        exact ihd nodes hns fun y hy => hu y (List.mem_cons_of_mem _ hy)
      · have : nodes.find? (fun x => id x == id v) = none := by
          rw [List.find?_eq_none]
          intro x hx
          simp only [beq_iff_eq]
          intro h
          exact hv (hid x v (hns x hx) hSv h ▸ hx)
        rw [this]
        simp only [if_neg hv]
        have hns' : ∀ x ∈ nodes ++ [v], S x := by
          intro x hx
          rcases List.mem_append.1 hx with hx | hx
          · exact hns x hx
          · rw [List.mem_singleton.1 hx]; exact hSv
        rw [ih v (nodes ++ [v]) (hS v hSv) hns']
        cases hr : registerNodes g limit v (nodes ++ [v]) with
        | none => rfl
        | some l =>
          refine ihd l (fun x hx => ?_) fun y hy => hu y (List.mem_cons_of_mem _ hy)
          rcases registerNodes_sub hr x hx with h | h
          · exact hns' x h
          · clear hx
            induction h with
            | single h => exact hS v hSv _ h
            | tail _ h ih => exact hS _ ih _ h

theorem omAddAll_dup (ns : List String) : ∀ done : List String,
    (omAddAll done ns = .error .runtimeError ∧ ¬ (ns.Nodup ∧ ∀ n ∈ ns, n ∉ done)) ∨
    (omAddAll done ns = .ok (done ++ ns) ∧ (ns.Nodup ∧ ∀ n ∈ ns, n ∉ done)) := by
  induction ns with
  | nil => intro done; right; simp [omAddAll]
  | cons n ns ih =>
    intro done
    unfold omAddAll
    by_cases h : n ∈ done
    · left
      rw [if_pos h]
      exact ⟨rfl, fun hh => hh.2 n List.mem_cons_self h⟩
    · rw [if_neg h]
      rcases ih (done ++ [n]) with ⟨h1, h2⟩ | ⟨h1, h2, h3⟩
      · left
        refine ⟨h1, fun hh => h2 ⟨hh.1.of_cons, fun m hm => ?_⟩⟩
        simp only [List.mem_append, List.mem_singleton, not_or]
        refine ⟨hh.2 m (List.mem_cons_of_mem _ hm), ?_⟩
        rintro rfl
        exact (List.nodup_cons.1 hh.1).1 hm
      · right
        refine ⟨by rw [h1]; simp, List.nodup_cons.2 ⟨fun hm => ?_, h2⟩, ?_⟩
        · exact h3 n hm (by simp)
        · intro m hm
          rcases List.mem_cons.1 hm with rfl | hm
          · exact h
          · exact fun hd => h3 m hm (by simp [hd])

/-- A check that succeeds went through all nodes and found their identifiers different. -/
theorem registerNodesChecked_ok (id : Ref → String) (g : Graph) (limit : Nat) : ∀ (u : Ref)
    (nodes l : List Ref), (nodes.map id).Nodup → registerNodesChecked id g limit u nodes = .ok l →
      registerNodes g limit u nodes = some l ∧ (l.map id).Nodup := by
  induction limit with
  | zero => intro u nodes l _ h; cases h
  | succ limit ih =>
    intro u nodes l hn h
    unfold registerNodesChecked at h
    unfold registerNodes
    generalize g u = ds at h ⊢
    induction ds generalizing nodes with
    | nil =>
      simp only [List.foldlM_nil] at h ⊢
      cases h
      exact ⟨rfl, hn⟩
    | cons v ds ihd =>
      rw [List.foldlM_cons] at h ⊢
      cases hf : nodes.find? (fun x => id x == id v) with
      | some x =>
        rw [hf] at h
        by_cases hx : x = v
        · subst hx
          simp only [if_true] at h
          rw [if_pos (List.mem_of_find?_eq_some hf)]
          exact ihd nodes hn h
        · simp only [if_neg hx] at h
          cases h
      | none =>
        rw [hf] at h
        simp only at h
        rw [List.find?_eq_none] at hf
        have hv : v ∉ nodes := fun hv => hf v hv (by simp)
        rw [if_neg hv]
        cases hr : registerNodesChecked id g limit v (nodes ++ [v]) with
        | error e => rw [hr] at h; cases h
        | ok l' =>
          rw [hr] at h
          obtain ⟨h1, h2⟩ := ih v (nodes ++ [v]) l' (by
            rw [List.map_append, List.nodup_append]
            refine ⟨hn, by simp, ?_⟩
            intro a ha b hb
            obtain ⟨x, hx, rfl⟩ := List.mem_map.1 ha
            simp only [List.map_cons, List.map_nil, List.mem_singleton] at hb
            subst hb
            intro e
            exact hf x hx (by simp [e])) hr
          rw [h1]
          exact ihd l' h2 h

theorem registerNodesChecked_error (id : Ref → String) (g : Graph) (limit : Nat) : ∀ (u : Ref)
    (nodes : List Ref), ChainsLt g u limit →
      registerNodesChecked id g limit u nodes = .error .valueError ∨
      ∃ l, registerNodesChecked id g limit u nodes = .ok l := by
  induction limit with
  | zero => intro u nodes h; exact absurd h (not_chainsLt_zero g u)
  | succ limit ih =>
    intro u nodes hc
    have hc' : ∀ v ∈ g u, ChainsLt g v limit := by
      intro v hv l hl
      have := hc (v :: l) (List.isChain_cons_cons.2 ⟨hv, hl⟩)
      simp only [List.length_cons] at this
      omega
    unfold registerNodesChecked
    generalize g u = ds at hc' ⊢
    induction ds generalizing nodes with
    | nil => exact Or.inr ⟨nodes, rfl⟩
    | cons v ds ihd =>
      rw [List.foldlM_cons]
      have ihd' := fun ns => ihd ns fun x hx => hc' x (List.mem_cons_of_mem _ hx)
      cases hf : nodes.find? (fun x => id x == id v) with
      | some x =>
        by_cases hx : x = v
        · simp only [if_pos hx]
          exact ihd' nodes
        · simp only [if_neg hx]
          exact Or.inl rfl
      | none =>
        simp only
        rcases ih v (nodes ++ [v]) (hc' v List.mem_cons_self) with h | ⟨l, h⟩
        · rw [h]; exact Or.inl rfl
        · rw [h]; exact ihd' l

/-- The name check of `omtools`, exactly: `ValueError` if two different expressions needed by the group
have the same identifier, and no error otherwise. -/
theorem c25_check_exact {genv : GEnv} {env : SetupEnv} {ops : List Op} (h : GroupOk genv env ops)
    (id : Ref → String) :
    ((∃ u v, Needs (final genv ops).deps 0 u ∧ Needs (final genv ops).deps 0 v ∧ u ≠ v ∧ id u = id v) →
      registerNodesChecked id (final genv ops).deps env.limit 0 [] = .error .valueError) ∧
    ((∀ u v, Needs (final genv ops).deps 0 u → Needs (final genv ops).deps 0 v → id u = id v → u = v) →
      ∃ nodes, registerNodesChecked id (final genv ops).deps env.limit 0 [] = .ok nodes) := by
  obtain ⟨n, hn, hlim⟩ := h.wellFormed.chains
  have hc : ChainsLt (final genv ops).deps 0 env.limit := fun l hl => lt_trans (hn l hl) hlim
  obtain ⟨ns, h1, h2, h3⟩ := registerNodes_nil hc
  constructor
  · rintro ⟨u, v, hu, hv, huv, hid⟩
    rcases registerNodesChecked_error id (final genv ops).deps env.limit 0 [] hc with h4 | ⟨l, h4⟩
    · exact h4
    · exfalso
      obtain ⟨h5, h6⟩ := registerNodesChecked_ok id _ _ 0 [] l (by simp) h4
      rw [h1] at h5
      cases h5
      exact huv (List.inj_on_of_nodup_map h6 ((h3 u).2 hu) ((h3 v).2 hv) hid)
  · intro hinj
    rw [registerNodesChecked_eq id _ (Needs (final genv ops).deps 0) (fun x y hx hy => hinj x y hx hy)
      (fun x hx y hy => hx.tail hy) _ _ _ (fun y hy => .single hy) (by simp), h1]
    exact ⟨ns, rfl⟩

/-- **C25, refuted** as stated: the documented name-collision error of `omtools` (a `ValueError`) is
never raised by the name check, whatever names the user gives: the check passes as soon as the generated
identifiers are different. -/
theorem c25_collision_check_never_fires {genv : GEnv} {env : SetupEnv} {ops : List Op}
    (h : GroupOk genv env ops) {id : Ref → String} (hid : Function.Injective id) :
    ∃ nodes, registerNodesChecked id (final genv ops).deps env.limit 0 [] = .ok nodes :=
  (c25_check_exact h id).2 fun u v _ _ huv => hid huv

/-- **C25**, what holds: two expressions whose components get the same name never go unnoticed, because
OpenMDAO refuses the second component (`RuntimeError`). -/
theorem c25_same_name_noticed_partial {genv : GEnv} {env : SetupEnv} {ops : List Op}
    (h : GroupOk genv env ops) {id : Ref → String} (hid : Function.Injective id)
    (isGroup : Ref → Bool) {u v : Ref} {comps : List Ref}
    (hc : setupGroup env (final genv ops) = .ok comps) (hu : u ∈ comps) (hv : v ∈ comps) (huv : u ≠ v)
    (hgu : (final genv ops).kind u ≠ .subsystem) (hgv : (final genv ops).kind v ≠ .subsystem)
    (hname : (final genv ops).name u = (final genv ops).name v) :
    setupNamed env id isGroup (final genv ops) = .error .runtimeError := by
  obtain ⟨nodes, hn⟩ := c25_collision_check_never_fires h hid
  unfold setupNamed
  simp only [hn, hc]
  rcases omAddAll_dup (comps.map (compName isGroup (final genv ops))) [] with ⟨h1, _⟩ | ⟨_, h2, _⟩
  · exact h1
  · exfalso
    have hinj := List.inj_on_of_nodup_map h2 hu hv
    exact huv (hinj (by simp [compName, hgu, hgv, hname]))

/-! ## Concrete cases -/

/-- C52 and C23 for output 6 of `demoOps`, defined by `7 = g(5, 6)`. -/
example : (step demoGEnv (final demoGEnv (demoOps.take 8)) (.define 6 7)).2 = none ∧
    (step demoGEnv (final demoGEnv (demoOps.take 8)) (.define 6 7)).1.deps 7 = [5, 8] ∧
    (step demoGEnv (final demoGEnv (demoOps.take 9)) (.define 6 7)).2 = some .valueError := by decide

/-- C24: 2 is an input, 3 is registered, 7 is not. -/
example : (step demoGEnv (final demoGEnv (demoOps.take 8)) (.registerOutput "p" 2)).2 = some .typeError ∧
    (step demoGEnv (final demoGEnv (demoOps.take 8)) (.registerOutput "p" 3)).2 = some .valueError ∧
    (step demoGEnv (final demoGEnv (demoOps.take 8)) (.registerOutput "p" 7)).2 = none := by decide

/-- C25: the check itself does find equal identifiers. -/
example : registerNodesChecked (fun u => if u = 0 then "r" else "y") (final demoGEnv demoOps).deps
    demoEnv.limit 0 [] = .error .valueError :=
  (c25_check_exact demo_groupOk _).1 ⟨1, 3, .single (show 1 ∈ (final demoGEnv demoOps).deps 0 by decide),
    .single (show 3 ∈ (final demoGEnv demoOps).deps 0 by decide), by decide, rfl⟩

/-- C25: two registered expressions with one name. -/
def collisionOps : List Op :=
  [.declareInput "x", .combine [1], .combine [1], .registerOutput "y" 2, .registerOutput "y" 3]

example : setupNamed demoEnv (fun u => String.ofList (List.replicate u 'a')) (fun _ => false)
    (final demoGEnv collisionOps) = .error .runtimeError :=
  c25_same_name_noticed_partial
    (groupOk_of_check (genv := demoGEnv) (ops := collisionOps) (by decide)
      ⟨trivial, trivial, trivial, trivial, trivial, trivial⟩ (by decide) 8 pyOrder_ascending (by decide))
    (fun a b h => by simpa using congrArg String.length h) _ (u := 2) (v := 3) (comps := [2, 3])
    (by decide) (by decide) (by decide) (by decide) (by decide) (by decide) (by decide)

end OM
