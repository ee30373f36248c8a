import Verif.Lemmas.Refused

/-! # Histories in which calls are refused keep their invariants -/

namespace OM

variable {genv : GEnv}

/-- What holds after any calls. -/
abbrev XOk (x : XWorld) : Prop := XInv x.other x.w

theorem xok_init (genv : GEnv) : XOk (XWorld.init genv) := by
  refine ⟨by simp [XWorld.init, World.init], by simp [XWorld.init, World.init],
    by simp [XWorld.init, World.init], by simp [XWorld.init, World.init],
    by simp [XWorld.init], by simp [XWorld.init, World.init], ?_, ?_, by simp [XWorld.init]⟩
  · intro u _; simp only [XWorld.init, World.init]; split <;> decide
  · intro u hu; simp only [XWorld.init, World.init] at hu; split at hu <;> cases hu

/-- What calls keep: objects stay what they are, objects that are not expressions and registered outputs
stay where they are, and what is defined stays so. -/
structure XStays (x x' : XWorld) : Prop where
  keeps : XKeeps x.other x.w x'.w
  other : ∀ r, r < x.w.next → x'.other r = x.other r

theorem XStays.refl (x : XWorld) : XStays x x := ⟨XKeeps.refl _ _, fun _ _ => rfl⟩

theorem XStays.trans {a b c : XWorld} (ha : XOk a) (h1 : XStays a b) (h2 : XStays b c) : XStays a c := by
  refine ⟨⟨h1.keeps.next.trans h2.keeps.next,
    fun u hu => (h2.keeps.kind u (hu.trans_le h1.keeps.next)).trans (h1.keeps.kind u hu), ?_,
    fun v hv => h2.keeps.root v (h1.keeps.root v hv),
    fun u hu => h2.keeps.defined u (h1.keeps.defined u hu)⟩,
    fun r hr => (h2.other r (hr.trans_le h1.keeps.next)).trans (h1.other r hr)⟩
  intro u r hr hm
  refine h2.keeps.other u r ?_ (h1.keeps.other u r hr hm)
  rw [h1.other r (ha.others r hr).2]; exact hr

theorem XGood.stays {x x' : XWorld} (h : XGood x.other x.w x'.w) (ho : x'.other = x.other) :
    XOk x' ∧ XStays x x' := by
  refine ⟨?_, h.2, fun r _ => by rw [ho]⟩
  unfold XOk; rw [ho]; exact h.1

theorem allocOther_good {x : XWorld} (h : XOk x) (b : Bool) :
    XOk (x.allocOther b) ∧ XStays x (x.allocOther b) := by
  have hne : ∀ r, r < x.w.next → (x.allocOther b).other r = x.other r := fun r hr => by
    simp [XWorld.allocOther, Function.update_of_ne hr.ne]
  refine ⟨⟨Nat.succ_pos _, ?_, ?_, ?_, ?_, h.root, ?_, h.outs, ?_⟩,
    ⟨⟨Nat.le_succ _, fun _ _ => rfl, fun _ _ _ h => h, fun _ h => h, fun _ h => h⟩, hne⟩⟩
  · intro u v hv; exact ⟨(h.range u v hv).1, Nat.lt_succ_of_lt (h.range u v hv).2⟩
  · intro s hs
    obtain ⟨h1, h2, h3⟩ := h.recent s hs
    exact ⟨h1, Nat.lt_succ_of_lt h2, (hne s h2).trans h3⟩
  · intro a d hd
    obtain ⟨h1, h2, h3⟩ := h.decomp a d hd
    exact ⟨h1, Nat.lt_succ_of_lt h2, (hne d h2).trans h3⟩
  · intro r hr
    by_cases he : r = x.w.next
    · subst he; exact ⟨h.pos, Nat.lt_succ_self _⟩
    · have : (x.other r).isSome := by
        simpa [XWorld.allocOther, Function.update_of_ne he] using hr
      exact ⟨(h.others r this).1, Nat.lt_succ_of_lt (h.others r this).2⟩
  · intro u hu
    have hu' : x.w.next + 1 ≤ u := hu
    exact h.fresh u (by omega)
  · intro u r hr hm
    have hm' : r ∈ x.w.deps u := hm
    rw [hne r (h.range u r hm').2] at hr
    exact h.places u r hr hm'

theorem xaddDep_good {x : XWorld} (h : XOk x) {u v : Ref} (hv : 0 < v ∧ v < x.w.next)
    (ho : x.other v = none ∨ x.w.kind u = .explicitOut) :
    XOk (x.addDep genv u v).1 ∧ XStays x (x.addDep genv u v).1 := by
  unfold XWorld.addDep
  split
  · refine XGood.stays (h.deps u v _ (fun a b => ?_) hv ho) rfl
    by_cases ha : a = u
    · subst ha; simp
    · simp [Function.update_of_ne ha, ha]
  · exact XGood.stays (h.addDep hv ho) rfl

theorem xaddDep_mem (x : XWorld) (u v : Ref) : v ∈ (x.addDep genv u v).1.w.deps u := by
  unfold XWorld.addDep
  split
  · simp
  · exact (mem_addDep genv.o x.w.deps u v u v).2 (.inr ⟨rfl, rfl⟩)

theorem defineCore_good {x : XWorld} (h : XOk x) {out e : Ref} (hk : x.w.kind out = .explicitOut)
    (he : 0 < e ∧ e < x.w.next) (ho : x.other out = none) :
    XOk (x.defineCore genv out e).1 ∧ XStays x (x.defineCore genv out e).1 := by
  have hd := h.setDefined out x.w.indexed
  have h1 := XGood.stays (x := x)
    (x' := { x with w := { x.w with defined := Function.update x.w.defined out true } }) hd rfl
  have h2 := xaddDep_good (genv := genv) h1.1 (u := out) (v := e) he (.inr hk)
  have h0 : out ≠ 0 := by rintro rfl; rw [h.root] at hk; cases hk
  have hlt : out < x.w.next := by
    by_contra hc; exact h.fresh out (by omega) hk
  unfold XWorld.defineCore
  generalize ({ x with w := { x.w with defined := Function.update x.w.defined out true } } :
    XWorld).addDep genv out e = p at h2 ⊢
  obtain ⟨x1, er⟩ := p
  have h3 := h1.2.trans h h2.2
  cases er with
  | some err => exact ⟨h2.1, h3⟩
  | none =>
    obtain ⟨h4, h5, _⟩ := XInv.replace (genv := genv) h2.1 (root := out) (node := out)
      ((h3.other out hlt).trans ho) h0
    have h6 := XGood.stays h4 h5
    exact ⟨h6.1, h3.trans h h6.2⟩

/-- Every valid call keeps all this. -/
theorem xstep_good {x : XWorld} (h : XOk x) {op : XOp} (hv : op.Valid x) :
    XOk (xstep genv x op).1 ∧ XStays x (xstep genv x op).1 := by
  have hrefl : XOk x ∧ XStays x x := ⟨h, XStays.refl x⟩
  cases op with
  | registerOther err => exact hrefl
  | residualOther out => simp only [xstep]; split <;> [exact hrefl; (split <;> exact hrefl)]
  | defineOther out b =>
    simp only [xstep]
    split
    · exact hrefl
    · rename_i hk
      split
      · exact hrefl
      · have h1 := allocOther_good h b
        obtain ⟨v1, v2, v3⟩ := hv
        have h2 := defineCore_good (genv := genv) h1.1 (out := out) (e := x.w.next)
          (not_not.1 hk) ⟨h.pos, Nat.lt_succ_self _⟩ ((h1.2.other out v2).trans v3)
        exact ⟨h2.1, h1.2.trans h h2.2⟩
  | setItemOther out b err =>
    simp only [xstep]
    split
    · exact hrefl
    · rename_i hk
      have h1 := allocOther_good h b
      have h2 := xaddDep_good (genv := genv) h1.1 (u := out) (v := x.w.next)
        ⟨h.pos, Nat.lt_succ_self _⟩ (.inr (not_not.1 hk))
      generalize (x.allocOther b).addDep genv out x.w.next = p at h2 ⊢
      obtain ⟨x1, er⟩ := p
      cases er <;> exact ⟨h2.1, h1.2.trans h h2.2⟩
  | api op =>
    cases op with
    | define out e =>
      simp only [xstep]
      split
      · exact hrefl
      · rename_i hk
        split
        · exact hrefl
        · split
          · exact hrefl
          · exact defineCore_good h (by simpa using hk) ⟨hv.2.1, hv.2.2.1⟩ hv.1.2.2
    | setItem out e check =>
      simp only [xstep]
      split
      · exact hrefl
      · have h2 := xaddDep_good (genv := genv) h (u := out) (v := e) ⟨hv.2.1, hv.2.2.1⟩ (.inl hv.2.2.2)
        generalize x.addDep genv out e = p at h2 ⊢
        obtain ⟨x1, er⟩ := p
        cases er with
        | some err => exact h2
        | none =>
          cases check with
          | some err => exact h2
          | none =>
            have h3 := h2.1.setDefined out (Function.update x1.w.indexed out true)
            have h4 := XGood.stays (x := x1)
              (x' := { x1 with w := { x1.w with indexed := Function.update x1.w.indexed out true,
                                                defined := Function.update x1.w.defined out true } })
              h3 rfl
            exact ⟨h4.1, h2.2.trans h h4.2⟩
    | defineResidual out e =>
      simp only [xstep]
      split
      · exact hrefl
      · split
        · exact hrefl
        · split
          · exact hrefl
          · obtain ⟨h4, h5, h6⟩ := XInv.replace (genv := genv) h (root := out) (node := e) hv.1.2.2
              hv.2.1.ne'
            have h7 := XGood.stays h4 h5
            generalize x.replace genv out e = p at h6 h7 ⊢
            obtain ⟨x1, er⟩ := p
            cases er with
            | some err => exact h7
            | none =>
              simp only at h6 h7 ⊢
              have h8 := h7.1.register (genv := genv) (nm := x1.w.name e) (a := e)
                ⟨hv.2.1, by have := hv.2.2.1; omega⟩ ((h7.2.other e hv.2.2.1).trans hv.2.2.2)
              generalize x1.w.register genv (x1.w.name e) e = q at h8 ⊢
              obtain ⟨w2, er⟩ := q
              cases er with
              | some err =>
                have h9 := XGood.stays (x := x1) (x' := { x1 with w := w2 }) h8 rfl
                exact ⟨h9.1, h7.2.trans h h9.2⟩
              | none =>
                have h9 := XGood.stays (x := x1)
                  (x' := { x1 with w := { w2 with defined := Function.update w2.defined out true } })
                  (h8.trans (h8.1.setDefined out w2.indexed)) rfl
                exact ⟨h9.1, h7.2.trans h h9.2⟩
    | combine args =>
      exact XGood.stays (x' := { x with w := (step genv x.w (.combine args)).1 })
        (XInv.step h _ (by rintro _ ⟨⟩; exact hv) (by simp) (by simp) (by simp) (by simp) (by simp)) rfl
    | getItem a =>
      exact XGood.stays (x' := { x with w := (step genv x.w (.getItem a)).1 })
        (XInv.step h _ (by simp) (by rintro _ ⟨⟩; exact hv) (by simp) (by simp) (by simp) (by simp)) rfl
    | registerOutput nm a =>
      exact XGood.stays (x' := { x with w := (step genv x.w (.registerOutput nm a)).1 })
        (XInv.step h _ (by simp) (by simp) (by rintro _ _ ⟨⟩; exact hv) (by simp) (by simp) (by simp)) rfl
    | declareInput nm =>
      exact XGood.stays (x' := { x with w := (step genv x.w (.declareInput nm)).1 })
        (XInv.step h _ (by simp) (by simp) (by simp) (by simp) (by simp) (by simp)) rfl
    | createIndep nm =>
      exact XGood.stays (x' := { x with w := (step genv x.w (.createIndep nm)).1 })
        (XInv.step h _ (by simp) (by simp) (by simp) (by simp) (by simp) (by simp)) rfl
    | createOutput nm =>
      exact XGood.stays (x' := { x with w := (step genv x.w (.createOutput nm)).1 })
        (XInv.step h _ (by simp) (by simp) (by simp) (by simp) (by simp) (by simp)) rfl
    | createImplicit nm =>
      exact XGood.stays (x' := { x with w := (step genv x.w (.createImplicit nm)).1 })
        (XInv.step h _ (by simp) (by simp) (by simp) (by simp) (by simp) (by simp)) rfl
    | addSubsystem nm =>
      exact XGood.stays (x' := { x with w := (step genv x.w (.addSubsystem nm)).1 })
        (XInv.step h _ (by simp) (by simp) (by simp) (by simp) (by simp) (by simp)) rfl

theorem xrun_good (ops : List XOp) : ∀ {x : XWorld}, XOk x → XValidFrom genv x ops →
    XOk (xrun genv x ops) ∧ XStays x (xrun genv x ops) := by
  induction ops with
  | nil => intro x h _; exact ⟨h, XStays.refl x⟩
  | cons op ops ih =>
    intro x h hv
    have h1 := xstep_good (genv := genv) h hv.1
    have h2 := ih h1.1 hv.2
    exact ⟨h2.1, h1.2.trans h h2.2⟩

end OM
