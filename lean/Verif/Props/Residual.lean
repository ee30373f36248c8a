import Verif.Props.Define
import Verif.Lemmas.ReplaceVisits

/-!
# `define_residual` (C63)

`replace_output_leaf_nodes` removes the output from the list it is looping over, so the element after it
is skipped. For `define` this is harmless (C52), because the loop starts at the output itself and is
repeated whenever the output is met; `define_residual` starts at the residual expression.
-/

namespace OM
open Spec

/-- **C63**, what holds: after a successful `out.define_residual(e)` there is one new object, an input
without dependencies carrying `out`'s name; the residual is an output of the group; every other
dependency list is as before or has `out` replaced by that input, and only expressions reachable from
the residual are changed. -/
theorem c63_residual_partial {genv : GEnv} {w : World} (ok : WorldOk w) {out e : Ref}
    (hv : (Op.defineResidual out e).Valid w)
    (hs : (step genv w (.defineResidual out e)).2 = none) :
    let w' := (step genv w (.defineResidual out e)).1
    w'.kind w.next = .input ∧ w'.name w.next = w.name out ∧ w'.deps w.next = [] ∧
    w'.defined out = true ∧
    (∀ x, x ∈ w'.deps 0 ↔ x ∈ w.deps 0 ∨ x = e) ∧
    (∀ u, u ≠ 0 → w'.deps u = w.deps u ∨
      (out ∈ w.deps u ∧ (Reach w.deps e u ∨ Reach w.deps out u) ∧
        ∀ x, x ∈ w'.deps u ↔ (x ∈ w.deps u ∧ x ≠ out) ∨ x = w.next)) := by
  intro w'
  have hroot := fun x => step_root_iff (env := genv) (op := .defineResidual out e) ok hv x
  have hw' : w' = (step genv w (.defineResidual out e)).1 := rfl
  clear_value w'
  rw [← hw'] at hroot
  have hroot' : ∀ x, x ∈ w'.deps 0 ↔ x ∈ w.deps 0 ∨ x = e := by
    intro x
    rw [hroot x]
    refine or_congr_right ⟨fun h => h.1.symm, fun h => ⟨h.symm, hs⟩⟩
  clear hroot
  unfold step at hs hw'
  simp only at hs hw'
  split at hs
  · cases hs
  · rename_i c1
    rw [if_neg c1] at hw'
    split at hs
    · cases hs
    · rename_i c2
      rw [if_neg c2] at hw'
      split at hs
      · cases hs
      · rename_i c3
        rw [if_neg c3] at hw'
        split at hs
        · cases hs
        · rename_i g hg
          rw [hg] at hw'
          simp only at hw'
          split at hs
          · cases hs
          · rename_i herr
            rw [herr] at hw'
            simp only at hw'
            have hne : w.next ≠ out := by have := hv.1.2; omega
            obtain ⟨r, hn, hl, _, hP⟩ := replaceLeafNodes_spec hne ok.nodup (ok.fresh _ le_rfl)
              (ok.finite out) hg
            have hdeps : ∀ u, u ≠ 0 → w'.deps u = g u := by
              intro u hu
              rw [hw']
              show (World.register _ _ _ _).1.deps u = _
              unfold World.register
              split
              · rfl
              · split
                · rfl
                · exact addDep_of_ne _ _ _ hu
            refine ⟨?_, ?_, ?_, ?_, hroot', ?_⟩
            · rw [hw']
              show (World.register _ _ _ _).1.kind w.next = _
              rw [World.register_keeps.2.1]
              exact Function.update_self ..
            · rw [hw']
              show (World.register _ _ _ _).1.name w.next = _
              have hne' : w.next ≠ e := by have := hv.2.2; omega
              unfold World.register
              split
              · exact Function.update_self ..
              · split
                · exact Function.update_self ..
                · show Function.update _ e _ w.next = _
                  rw [Function.update_of_ne hne']
                  exact Function.update_self ..
            · rw [hdeps _ ok.pos.ne', hl]
            · rw [hw']
              exact Function.update_self ..
            · intro u hu
              rw [hdeps u hu]
              by_cases hun : u = w.next
              · subst hun
                left; rw [hl, ok.fresh _ le_rfl]
              by_cases hr : Reach w.deps e u ∨ Reach w.deps out u
              · rcases r u with h | ⟨h, h'⟩
                · exact Or.inl h
                · right
                  refine ⟨h, hr, fun x => ?_⟩
                  rw [h', mem_replaced genv.o out w.next (ok.nodup u)]
              · left
                refine hP (fun x => Reach w.deps e x ∨ x = w.next ∨ Reach w.deps out x)
                  (Or.inr (Or.inr .refl)) (Or.inr (Or.inl rfl)) (Or.inl .refl) ?_ u ?_
                · rintro a (ha | rfl | ha) x hx
                  · exact Or.inl (ha.tail hx)
                  · rw [ok.fresh _ le_rfl] at hx; simp at hx
                  · exact Or.inr (Or.inr (ha.tail hx))
                · rintro (h | h | h)
                  · exact hr (Or.inl h)
                  · exact hun h
                  · exact hr (Or.inr h)

/-- The lists after a successful `define_residual` are those that the replacement leaves. -/
theorem residual_graph {genv : GEnv} {w : World} {out e : Ref}
    (hs : (step genv w (.defineResidual out e)).2 = none) :
    ∃ g, replaceLeafNodes genv.o genv.fuel out e w.next w.deps = some g ∧
      ∀ u, u ≠ 0 → (step genv w (.defineResidual out e)).1.deps u = g u := by
  generalize hw' : step genv w (.defineResidual out e) = r at hs
  unfold step at hw'
  simp only at hw'
  split at hw'
  · subst hw'; cases hs
  · split at hw'
    · subst hw'; cases hs
    · split at hw'
      · subst hw'; cases hs
      · split at hw'
        · subst hw'; cases hs
        · rename_i g hg
          refine ⟨g, hg, fun u hu => ?_⟩
          split at hw'
          · subst hw'; cases hs
          · subst hw'
            show (World.register _ _ _ _).1.deps u = _
            unfold World.register
            split
            · rfl
            · split
              · rfl
              · exact addDep_of_ne _ _ _ hu

/-- A path to a use of `out` does not go through `out` and is kept. -/
theorem reach_replaced {o : SetOrder Ref} {out leaf : Ref} {g g' : Graph} (hn : ∀ u, (g u).Nodup)
    (r : Replaced o out leaf g g') (hac : AcyclicG g) {a u : Ref} (hu : out ∈ g u) (ha : Reach g a u) :
    Reach g' a u := by
  induction ha using Relation.ReflTransGen.head_induction_on with
  | refl => exact .refl
  | head hab hbu ih =>
    rename_i a b
    refine .head ?_ ih
    show b ∈ g' a
    have hb : b ≠ out := by
      rintro rfl
      exact hac u (Relation.TransGen.head' hu hbu)
    rcases r a with e | ⟨_, e⟩
    · rw [e]; exact hab
    · rw [e, mem_replaced o out leaf (hn a)]
      exact Or.inl ⟨hab, hb⟩

/-- **C63**, when it holds: if wherever the output occurs in a dependency list below the residual the next element of
the list does not depend on the output, then `out.define_residual(e)` replaces every use of the output below the
residual by the new input, and nothing else. (`c63_skipped` for what happens otherwise.) -/
theorem c63_all_replaced_partial {genv : GEnv} {w : World} (ok : WorldOk w) (hac : AcyclicG w.deps) {out e : Ref}
    (hv : (Op.defineResidual out e).Valid w)
    (hnext : ∀ u, Reach w.deps e u → ∀ pre x post, w.deps u = pre ++ out :: x :: post → ¬ Reach w.deps x out)
    (hs : (step genv w (.defineResidual out e)).2 = none) :
    let w' := (step genv w (.defineResidual out e)).1
    (∀ x, Reach w'.deps e x → out ∉ w'.deps x) ∧
    ∀ u, u ≠ 0 → (Reach w.deps e u ∧ out ∈ w.deps u ∧
        ∀ x, x ∈ w'.deps u ↔ (x ∈ w.deps u ∧ x ≠ out) ∨ x = w.next) ∨
      (¬ (Reach w.deps e u ∧ out ∈ w.deps u) ∧ w'.deps u = w.deps u) := by
  intro w'
  have hne : w.next ≠ out := by have := hv.1.2; omega
  obtain ⟨g, hg, hd⟩ := residual_graph hs
  obtain ⟨r, hn, hl, _, _⟩ := replaceLeafNodes_spec hne ok.nodup (ok.fresh _ le_rfl) (ok.finite out) hg
  have hclean := replaceLeafNodes_all genv.o out w.next hne ok.nodup (ok.fresh _ le_rfl) (ok.finite out) hac
    (node := e) (fun u hu pre x post he y hy hr => hnext u hu pre x post he (hy.tail hr)) hg
  have he0 : e ≠ 0 := by have := hv.2.1; omega
  have hpos : ∀ {u x : Ref}, x ∈ g u → x ≠ 0 := by
    intro u x hx
    rcases r u with e | ⟨_, e⟩
    · exact (ok.range u x (e ▸ hx)).1.ne'
    · rw [e, mem_replaced genv.o out w.next (ok.nodup u)] at hx
      rcases hx with ⟨h, _⟩ | rfl
      · exact (ok.range u x h).1.ne'
      · exact ok.pos.ne'
  have hreach : ∀ x, Reach w'.deps e x → Reach g e x ∧ x ≠ 0 := by
    intro x hx
    induction hx with
    | refl => exact ⟨.refl, he0⟩
    | @tail a b _ hab ih =>
      have hab' : b ∈ g a := by rw [← hd a ih.2]; exact hab
      exact ⟨ih.1.tail hab', hpos hab'⟩
  refine ⟨fun x hx => ?_, fun u hu => ?_⟩
  · obtain ⟨h1, h2⟩ := hreach x hx
    show out ∉ (step genv w (.defineResidual out e)).1.deps x
    rw [hd x h2]
    exact hclean x h1
  · show (_ ∧ _ ∧ ∀ x, x ∈ (step genv w (.defineResidual out e)).1.deps u ↔ _) ∨
      (_ ∧ (step genv w (.defineResidual out e)).1.deps u = _)
    rw [hd u hu]
    by_cases hc : Reach w.deps e u ∧ out ∈ w.deps u
    · refine Or.inl ⟨hc.1, hc.2, fun x => ?_⟩
      have hnot := hclean u (reach_replaced ok.nodup r hac hc.2 hc.1)
      rcases r u with e | ⟨_, e⟩
      · rw [e] at hnot; exact absurd hc.2 hnot
      · rw [e, mem_replaced genv.o out w.next (ok.nodup u)]
    · refine Or.inr ⟨hc, ?_⟩
      have h := (c63_residual_partial ok hv hs).2.2.2.2.2 u hu
      rw [hd u hu] at h
      rcases h with h | ⟨h1, h2 | h2, _⟩
      · exact h
      · exact absurd ⟨h2, h1⟩ hc
      · exact absurd (Relation.TransGen.head' h1 h2) (hac u)

/-- **C63, refuted**, for every acyclic group: if in the dependency list of the residual the output is followed by `x`,
then what `x` depends on and none of the other elements of the list does keeps its use of the output. -/
theorem c63_skipped {genv : GEnv} {w : World} (ok : WorldOk w) (hac : AcyclicG w.deps) {out e : Ref}
    (hv : (Op.defineResidual out e).Valid w) {pre post : List Ref} {x : Ref}
    (hd : w.deps e = pre ++ out :: x :: post) {u : Ref} (hxu : Reach w.deps x u) (hu : out ∈ w.deps u)
    (hother : ∀ y ∈ w.deps e, y ≠ x → ¬ Reach w.deps y u)
    (hs : (step genv w (.defineResidual out e)).2 = none) :
    let w' := (step genv w (.defineResidual out e)).1
    Reach w'.deps e u ∧ out ∈ w'.deps u := by
  intro w'
  have hne : w.next ≠ out := by have := hv.1.2; omega
  obtain ⟨g, hg, hgd⟩ := residual_graph hs
  obtain ⟨r, hn, hl, _, _⟩ := replaceLeafNodes_spec hne ok.nodup (ok.fresh _ le_rfl) (ok.finite out) hg
  have he0 : e ≠ 0 := by have := hv.2.1; omega
  have hxe : x ∈ w.deps e := by rw [hd]; simp
  have heu : Reach w.deps e u := .head hxe hxu
  have hue : u ≠ e := by
    rintro rfl
    exact hac u (Relation.TransGen.head' hxe hxu)
  have hul : u ≠ w.next := by
    rintro rfl
    rw [ok.fresh _ le_rfl] at hu; simp at hu
  have hgu := replaceLeafNodes_skips genv.o out w.next hne ok.nodup (ok.fresh _ le_rfl) (ok.finite out) hac hd hg
    hue hul hother
  have hpos : ∀ {u x : Ref}, x ∈ g u → x ≠ 0 := by
    intro u x hx
    rcases r u with e | ⟨_, e⟩
    · exact (ok.range u x (e ▸ hx)).1.ne'
    · rw [e, mem_replaced genv.o out w.next (ok.nodup u)] at hx
      rcases hx with ⟨h, _⟩ | rfl
      · exact (ok.range u x h).1.ne'
      · exact ok.pos.ne'
  have hreach : ∀ x, Reach g e x → Reach w'.deps e x ∧ x ≠ 0 := by
    intro x hx
    induction hx with
    | refl => exact ⟨.refl, he0⟩
    | @tail a b _ hab ih =>
      refine ⟨ih.1.tail ?_, hpos hab⟩
      show b ∈ (step genv w (.defineResidual out e)).1.deps a
      rw [hgd a ih.2]; exact hab
  obtain ⟨h1, h2⟩ := hreach u (reach_replaced ok.nodup r hac hu heu)
  refine ⟨h1, ?_⟩
  show out ∈ (step genv w (.defineResidual out e)).1.deps u
  rw [hgd u h2, hgu]
  exact hu

/-- `y = create_implicit_output`, `b = f(y)`, `r = g(y, b)`. -/
def skippedOps : List Op := [.createImplicit "y", .combine [1], .combine [1, 2]]

/-- **C63, refuted.** With the residual `r = g(y, b)`, `b = f(y)`, `y.define_residual(r)` succeeds and
`r` still reaches `y` through `b`: the element after `y` in the list of `r` is skipped. -/
theorem c63_replacement_skips : ∃ genv, ValidFrom genv (World.init genv) (skippedOps ++ [.defineResidual 1 3]) ∧
    (step genv (final genv skippedOps) (.defineResidual 1 3)).2 = none ∧
    Reach (step genv (final genv skippedOps) (.defineResidual 1 3)).1.deps 3 1 :=
  ⟨demoGEnv, by decide, by decide,
    .tail (b := 2) (.single (show (2 : Nat) ∈ World.deps _ 3 by decide))
      (show (1 : Nat) ∈ World.deps _ 2 by decide)⟩

/-- The hypotheses of `c63_residual_partial` hold for that call. -/
example : ∀ x, x ∈ (step demoGEnv (final demoGEnv skippedOps) (.defineResidual 1 3)).1.deps 0 ↔
    x ∈ (final demoGEnv skippedOps).deps 0 ∨ x = 3 :=
  (c63_residual_partial (genv := demoGEnv)
    (run_ok skippedOps (worldOk_init demoGEnv) (by decide)) (by decide) (by decide)).2.2.2.2.1

/-- The hypotheses of `c63_skipped` hold for that call: `b` keeps its use of `y`. -/
example : Reach (step demoGEnv (final demoGEnv skippedOps) (.defineResidual 1 3)).1.deps 3 2 ∧
    1 ∈ (step demoGEnv (final demoGEnv skippedOps) (.defineResidual 1 3)).1.deps 2 :=
  c63_skipped (pre := []) (post := []) (x := 2) (run_ok skippedOps (worldOk_init demoGEnv) (by decide))
    (run_acyclic skippedOps (worldOk_init demoGEnv) (acyclic_init demoGEnv) (by decide) ⟨trivial, trivial, trivial, trivial⟩) (by decide)
    (by decide) .refl (by decide)
    (by
      have h3 : (final demoGEnv skippedOps).deps 3 = [1, 2] := by decide
      have h1 : (final demoGEnv skippedOps).deps 1 = [] := by decide
      intro y hy hy2 hr
      rw [h3] at hy
      have : y = 1 := by simpa [hy2] using hy
      subst this
      rcases Relation.ReflTransGen.cases_head hr with h | ⟨d, hd, _⟩
      · exact absurd h (by decide)
      · replace hd : d ∈ (final demoGEnv skippedOps).deps 1 := hd
        rw [h1] at hd; simp at hd) (by decide)

/-- `y = create_implicit_output`, `b = f(y)`, `r = g(b, y)`. -/
def lastOps : List Op := [.createImplicit "y", .combine [1], .combine [2, 1]]

/-- The hypotheses of `c63_all_replaced_partial` hold if the output comes last. -/
example : ∀ x, Reach (step demoGEnv (final demoGEnv lastOps) (.defineResidual 1 3)).1.deps 3 x →
    1 ∉ (step demoGEnv (final demoGEnv lastOps) (.defineResidual 1 3)).1.deps x :=
  (c63_all_replaced_partial (run_ok lastOps (worldOk_init demoGEnv) (by decide))
    (run_acyclic lastOps (worldOk_init demoGEnv) (acyclic_init demoGEnv) (by decide) ⟨trivial, trivial, trivial, trivial⟩) (by decide)
    (by
      have h3 : (final demoGEnv lastOps).deps 3 = [2, 1] := by decide
      have h2 : (final demoGEnv lastOps).deps 2 = [1] := by decide
      have h1 : (final demoGEnv lastOps).deps 1 = [] := by decide
      have hr : ∀ u, Reach (final demoGEnv lastOps).deps 3 u → u = 3 ∨ u = 2 ∨ u = 1 := by
        intro u hu
        induction hu with
        | refl => exact Or.inl rfl
        | @tail a b _ hab ih =>
          replace hab : b ∈ (final demoGEnv lastOps).deps a := hab
          rcases ih with rfl | rfl | rfl
          · rw [h3] at hab; simp at hab; omega
          · rw [h2] at hab; simp at hab; omega
          · rw [h1] at hab; simp at hab
      intro u hu pre x post he
      have hlen : (pre ++ 1 :: x :: post).length ≤ 2 := by
        rw [← he]
        rcases hr u hu with rfl | rfl | rfl
        · rw [h3]; simp
        · rw [h2]; simp
        · rw [h1]; simp
      have hpre : pre = [] := by
        rw [List.eq_nil_iff_length_eq_zero]
        simp at hlen
        omega
      subst hpre
      rcases hr u hu with rfl | rfl | rfl
      · rw [h3] at he; simp at he
      · rw [h2] at he; simp at he
      · rw [h1] at he; simp at he) (by decide)).1

end OM
