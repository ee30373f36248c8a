import Verif.Lemmas.Wiring

/-! # Names change only by `register_output` -/

namespace OM
open Spec

section
variable {genv : GEnv}


theorem register_name {w : World} {nm : String} {x u : Ref}
    (h : (w.register genv nm x).1.name u ≠ w.name u) :
    u = x ∧ (w.register genv nm x).2 = none ∧ w.kind x ≠ .input ∧ (w.register genv nm x).1.name u = nm := by
  unfold World.register at h ⊢
  split at h
  · exact absurd rfl h
  · rename_i hk
    rw [if_neg hk]
    split at h
    · exact absurd rfl h
    · rename_i hd
      rw [if_neg hd]
      have hux : u = x := by
        by_contra hne
        exact h (Function.update_of_ne hne _ _)
      subst hux
      exact ⟨rfl, rfl, hk, Function.update_self ..⟩

theorem addDeps_name {u : Ref} (ds : List Ref) (w : World) :
    (ds.foldl (fun w' d => w'.addDep genv u d) w).name = w.name := by
  induction ds generalizing w with
  | nil => rfl
  | cons d ds ih => rw [List.foldl_cons, ih]; rfl

theorem step_name {w : World} {op : Op} {u : Ref} (hu : u < w.next)
    (h : (step genv w op).1.name u ≠ w.name u) :
    ∃ nm, op = .registerOutput nm u ∧ (step genv w op).2 = none ∧ w.kind u ≠ .input ∧
      (step genv w op).1.name u = nm := by
  have halloc : ∀ k nm, (w.alloc k nm).name u = w.name u := fun k nm => Function.update_of_ne hu.ne _ _
  cases op with
  | declareInput nm =>
    exfalso; apply h
    unfold step; cases hr : w.recent <;> exact halloc .input nm
  | createIndep nm =>
    exfalso
    have h1 : (match w.recent with
      | some s => (w.alloc .indep nm).addDep genv s w.next
      | none => w.alloc .indep nm).name u = w.name u := by
      cases hr : w.recent <;> exact halloc .indep nm
    have h2 : (step genv w (.createIndep nm)).1.name u ≠ (match w.recent with
      | some s => (w.alloc .indep nm).addDep genv s w.next
      | none => w.alloc .indep nm).name u := by rw [h1]; exact h
    exact hu.ne (register_name h2).1
  | createOutput nm => exact absurd (halloc .explicitOut nm) h
  | createImplicit nm => exact absurd (halloc .implicitOut nm) h
  | combine args =>
    exfalso; apply h
    show World.name (args.foldl _ _) u = _
    rw [addDeps_name]; exact halloc .expr _
  | getItem x =>
    exfalso; apply h
    unfold step; simp only
    cases hd : w.decomp x with
    | some d => simp only [hd]; exact halloc .item _
    | none =>
      simp only [Function.update_self]
      show Function.update (w.alloc .decomp _).name (w.next + 1) _ u = _
      rw [Function.update_of_ne (Nat.lt_succ_of_lt hu).ne]; exact halloc .decomp _
  | registerOutput nm x =>
    obtain ⟨rfl, h1, h2, h3⟩ := register_name h
    exact ⟨nm, rfl, h1, h2, h3⟩
  | addSubsystem nm =>
    exfalso; apply h
    show World.name ((w.deps 0).foldl _ _) u = _
    rw [addDeps_name]; exact halloc .subsystem nm
  | define out e =>
    exfalso; apply h
    unfold step; simp only
    split
    · rfl
    · split
      · rfl
      · split
        · rfl
        · split <;> exact halloc .input (w.name out)
  | setItem out e c =>
    exfalso; apply h
    unfold step; simp only
    split
    · rfl
    · cases c <;> rfl
  | defineResidual out e =>
    exfalso; apply h
    unfold step; simp only
    split
    · rfl
    · split
      · rfl
      · split
        · rfl
        · split
          · exact halloc .input (w.name out)
          · rename_i g hg
            have key : (({ w.alloc .input (w.name out) with deps := g } : World).register genv
                ((w.alloc .input (w.name out)).name e) e).1.name u = w.name u := by
              by_contra hne
              have h1 : (({ w.alloc .input (w.name out) with deps := g } : World).register genv
                ((w.alloc .input (w.name out)).name e) e).1.name u ≠
                ({ w.alloc .input (w.name out) with deps := g } : World).name u := by
                intro h2
                exact hne (h2.trans (halloc .input (w.name out)))
              obtain ⟨rfl, _, _, h4⟩ := register_name h1
              exact hne (h4.trans (halloc .input (w.name out)))
            split <;> exact key

theorem name_kept {a b : List Op} (hv : ValidFrom genv (World.init genv) (a ++ b)) {u : Ref}
    (hu : u < (final genv a).next)
    (h : ∀ b1 nm b2, b = b1 ++ .registerOutput nm u :: b2 →
      (step genv (final genv (a ++ b1)) (.registerOutput nm u)).2 ≠ none ∨
        (final genv (a ++ b1)).kind u = .input) :
    (final genv (a ++ b)).name u = (final genv a).name u := by
  induction b using List.reverseRecOn with
  | nil => rw [List.append_nil]
  | append_singleton b op ih =>
    rw [← List.append_assoc] at hv ⊢
    have hva := (validFrom_append genv (a ++ b) _ _).1 hv
    have ih := ih hva.1 (fun b1 nm b2 e => h b1 nm (b2 ++ [op]) (by rw [e]; simp))
    rw [final_snoc, ← ih]
    by_contra hne
    have hlt : u < (final genv (a ++ b)).next := by
      have hvb := (validFrom_append genv a b _).1 hva.1
      refine lt_of_lt_of_le hu ?_
      show (run genv _ a).next ≤ (run genv _ (a ++ b)).next
      rw [run_append]
      exact run_next b (run_ok a (worldOk_init genv) hvb.1) hvb.2
    obtain ⟨nm, rfl, h1, h2, _⟩ := step_name hlt hne
    rcases h b nm [] rfl with h3 | h3
    · exact h3 h1
    · exact h2 h3

theorem input_name {a b : List Op} {nm : String}
    (hv : ValidFrom genv (World.init genv) (a ++ .declareInput nm :: b)) :
    (final genv (a ++ .declareInput nm :: b)).name (final genv a).next = nm := by
  have e : a ++ .declareInput nm :: b = (a ++ [.declareInput nm]) ++ b := by simp
  obtain ⟨⟨_, h2⟩, _, h4⟩ := made_kind (op := .declareInput nm) hv (u := (final genv a).next) rfl
  rw [e] at hv ⊢
  rw [name_kept hv h2]
  · rw [final_snoc]; unfold step
    cases hr : (final genv a).recent <;> exact Function.update_self ..
  · intro b1 nm' b2 hb
    right
    subst hb
    have hv1 : ValidFrom genv (World.init genv) (a ++ .declareInput nm :: b1) := by
      have := ((validFrom_append genv (a ++ .declareInput nm :: b1) (.registerOutput nm' _ :: b2) _).1
        (by simpa using hv)).1
      exact this
    obtain ⟨_, h5, h6⟩ := made_kind (op := .declareInput nm) hv1 (u := (final genv a).next) rfl
    have e2 : a ++ .declareInput nm :: b1 = (a ++ [.declareInput nm]) ++ b1 := by simp
    rw [e2] at h5
    exact h5.trans h6

end

end OM
