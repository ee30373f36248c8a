import Verif.Lemmas.Edges

/-! # Which component writes an expression `x[key]` -/

namespace OM
open Spec

/-- `o` is the expression returned by some `x[key]`, and `d` is the object made by the first use of
`x[...]`, whose component computes all parts of `x`. -/
def ItemOf (genv : GEnv) (ops : List Op) (o d : Ref) : Prop :=
  ∃ a x b, ops = a ++ .getItem x :: b ∧ o + 1 = (final genv (a ++ [.getItem x])).next ∧
    FirstItem genv (a ++ [.getItem x]) x d

/-- The component made from `d` writes the variable of `o`. -/
def Writes (genv : GEnv) (ops : List Op) (d o : Ref) : Prop :=
  ItemOf genv ops o d ∨ ((final genv ops).kind o ≠ .item ∧ d = o)

section
variable {genv : GEnv}

theorem getItem_next (w : World) (x : Ref) :
    (step genv w (.getItem x)).1.next = w.next + (if w.decomp x = none then 2 else 1) ∧
    (step genv w (.getItem x)).1.kind ((step genv w (.getItem x)).1.next - 1) = .item ∧
    (w.decomp x = none → (step genv w (.getItem x)).1.kind w.next = .decomp) := by
  unfold step
  simp only
  cases hd : w.decomp x with
  | some d =>
    simp only [hd]
    refine ⟨rfl, ?_, fun h => by cases h⟩
    show Function.update w.kind w.next .item (w.next + 1 - 1) = _
    rw [Nat.add_sub_cancel, Function.update_self]
  | none =>
    simp only [Function.update_self]
    refine ⟨rfl, ?_, fun _ => ?_⟩
    · show Function.update (Function.update w.kind w.next .decomp) (w.next + 1) .item
        (w.next + 1 + 1 - 1) = _
      rw [Nat.add_sub_cancel, Function.update_self]
    · show Function.update (Function.update w.kind w.next .decomp) (w.next + 1) .item w.next = _
      rw [Function.update_of_ne (Nat.lt_succ_self _).ne, Function.update_self]

/-- The object made by the first use of `x[...]` exists, is a decomposition, and stays one. -/
theorem firstItem_kind {ops : List Op} (hv : ValidFrom genv (World.init genv) ops) {x d : Ref}
    (h : FirstItem genv ops x d) :
    d < (final genv ops).next ∧ (final genv ops).kind d = .decomp := by
  obtain ⟨a1, a2, rfl, rfl, hn⟩ := h
  have hva := (validFrom_append genv a1 _ _).1 hv
  have oka := run_ok a1 (worldOk_init genv) hva.1
  have ok1 := step_ok (env := genv) oka hva.2.1
  have hd := (decomp_iff genv a1 x).2.2 hn
  obtain ⟨h1, _, h3⟩ := getItem_next (genv := genv) (final genv a1) x
  rw [if_pos hd] at h1
  have hlt : (final genv a1).next < (step genv (final genv a1) (.getItem x)).1.next := by omega
  rw [final_split, final_snoc]
  exact ⟨lt_of_lt_of_le hlt (run_next a2 ok1 hva.2.2),
    (run_kind a2 ok1 hva.2.2 _ hlt).trans (h3 hd)⟩

theorem firstItem_unique {ops : List Op} {x d d' : Ref} (h : FirstItem genv ops x d)
    (h' : FirstItem genv ops x d') : d = d' := by
  have h1 := ((decomp_iff genv ops x).1 d).2 h
  have h2 := ((decomp_iff genv ops x).1 d').2 h'
  rw [h1] at h2
  exact Option.some.inj h2

theorem itemOf_kind {ops : List Op} (hv : ValidFrom genv (World.init genv) ops) {o d : Ref}
    (h : ItemOf genv ops o d) : (final genv ops).kind o = .item ∧ (final genv ops).kind d = .decomp := by
  obtain ⟨a, x, b, rfl, ho, hd⟩ := h
  have hva := (validFrom_append genv a _ _).1 hv
  have oka := run_ok a (worldOk_init genv) hva.1
  have ok1 := step_ok (env := genv) oka hva.2.1
  have hv1 : ValidFrom genv (World.init genv) (a ++ [.getItem x]) :=
    (validFrom_append genv a _ _).2 ⟨hva.1, hva.2.1, trivial⟩
  obtain ⟨h1, h2⟩ := firstItem_kind hv1 hd
  rw [final_snoc] at ho h1 h2
  rw [final_split, final_snoc, run_kind b ok1 hva.2.2 o (lt_of_lt_of_eq (Nat.lt_succ_self _) ho), run_kind b ok1 hva.2.2 d h1]
  refine ⟨?_, h2⟩
  have h3 := (getItem_next (genv := genv) (final genv a) x).2.1
  rw [← ho] at h3
  exact h3

/-- Every expression of this kind comes from a use of `x[...]`. -/
theorem item_from {ops : List Op} (hv : ValidFrom genv (World.init genv) ops) {o : Ref}
    (h : (final genv ops).kind o = .item) : ∃ d, ItemOf genv ops o d := by
  induction ops using List.reverseRecOn with
  | nil =>
    simp only [final, run, List.foldl_nil, World.init] at h
    split at h <;> cases h
  | append_singleton a op ih =>
    have hva := (validFrom_append genv a _ _).1 hv
    have oka := run_ok a (worldOk_init genv) hva.1
    rw [final_snoc] at h
    by_cases hold : (final genv a).kind o = .item
    · obtain ⟨d, a1, x, b, rfl, h1, h2⟩ := ih hva.1 hold
      exact ⟨d, a1, x, b ++ [op], by simp, h1, h2⟩
    · rcases step_newKinds (env := genv) (w := final genv a) (op := op) o with h' | h'
      · exact absurd (h' ▸ h) hold
      · rw [h] at h'
        cases op with
        | getItem x =>
          obtain ⟨d, hd⟩ : ∃ d, (step genv (final genv a) (.getItem x)).1.decomp x = some d :=
            ⟨_, step_decomp_self⟩
          rw [← final_snoc] at hd
          refine ⟨d, a, x, [], rfl, ?_, ((decomp_iff genv _ x).1 d).1 hd⟩
          rw [final_snoc]
          obtain ⟨h1, h2, h3⟩ := getItem_next (genv := genv) (final genv a) x
          by_cases hlt : o < (final genv a).next
          · exact absurd (((step_keeps (env := genv) oka hva.2.1).2.1 o hlt).symm.trans h) hold
          by_cases hge : o < (step genv (final genv a) (.getItem x)).1.next
          · by_cases hn : (final genv a).decomp x = none
            · rw [if_pos hn] at h1
              rcases Nat.lt_or_ge (final genv a).next o with hc | hc
              · omega
              · have : o = (final genv a).next := by omega
                rw [this, h3 hn] at h; cases h
            · rw [if_neg hn] at h1
              omega
          · exfalso
            apply hold
            rw [← h]
            unfold step
            simp only
            cases hn : (final genv a).decomp x with
            | some d' =>
              simp only [hn]
              rw [if_neg (by simp [hn])] at h1
              show _ = Function.update (final genv a).kind (final genv a).next .item o
              rw [Function.update_of_ne (by omega)]
            | none =>
              simp only [Function.update_self]
              rw [if_pos hn] at h1
              show _ = Function.update (Function.update (final genv a).kind (final genv a).next .decomp)
                ((final genv a).next + 1) .item o
              rw [Function.update_of_ne (by omega), Function.update_of_ne (by omega)]
        | _ => simp [Op.newKinds] at h'

theorem itemOf_unique {ops : List Op} (hv : ValidFrom genv (World.init genv) ops) {o d d' : Ref}
    (h : ItemOf genv ops o d) (h' : ItemOf genv ops o d') : d = d' := by
  obtain ⟨a, x, b, e, ho, hd⟩ := h
  obtain ⟨a', x', b', e', ho', hd'⟩ := h'
  have key : ∀ {a a' b b' : List Op} {x x' : Ref}, ops = a ++ .getItem x :: b →
      ops = a' ++ .getItem x' :: b' → o + 1 = (final genv (a ++ [.getItem x])).next →
      o + 1 = (final genv (a' ++ [.getItem x'])).next → ∀ c, a' = a ++ c → c = [] := by
    intro a a' b b' x x' e e' ho ho' c hc
    subst hc
    cases c with
    | nil => rfl
    | cons op c =>
      exfalso
      have hop : op = .getItem x := by
        have := e.symm.trans e'
        simp only [List.append_assoc, List.cons_append, List.append_cancel_left_eq,
          List.cons.injEq] at this
        exact this.1.symm
      subst hop
      subst e'
      have e2 : a ++ .getItem x :: c = (a ++ [.getItem x]) ++ c := by simp
      have hv2 := ((validFrom_append genv _ _ _).1 hv).1
      have hv3 := ((validFrom_append genv _ _ _).1 (e2 ▸ hv2))
      have ok1 := run_ok (env := genv) _ (worldOk_init genv) hv3.1
      have h1 : (final genv (a ++ [.getItem x])).next ≤ (final genv (a ++ .getItem x :: c)).next := by
        rw [final_split genv a c]
        exact run_next c ok1 hv3.2
      have h2 := (getItem_next (genv := genv) (final genv (a ++ .getItem x :: c)) x').1
      rw [← final_snoc] at h2
      split at h2 <;> omega
  have hpre : a' = a ∧ x' = x := by
    have e3 := e.symm.trans e'
    rcases List.append_eq_append_iff.1 e3 with ⟨c, hc, hc2⟩ | ⟨c, hc, hc2⟩
    · have hc0 := key e e' ho ho' c hc
      subst hc0
      simp only [List.append_nil, List.nil_append, List.cons.injEq, Op.getItem.injEq] at hc hc2
      exact ⟨hc, hc2.1.symm⟩
    · have hc0 := key e' e ho' ho c hc
      subst hc0
      simp only [List.append_nil, List.nil_append, List.cons.injEq, Op.getItem.injEq] at hc hc2
      exact ⟨hc.symm, hc2.1⟩
  obtain ⟨rfl, rfl⟩ := hpre
  exact firstItem_unique hd hd'

/-- The expression `x[key]` depends on the decomposition of `x`. -/
theorem itemOf_edge {ops : List Op} (hv : ValidFrom genv (World.init genv) ops)
    (hs : SafeFrom genv (World.init genv) ops) {o d : Ref} (h : ItemOf genv ops o d) :
    d ∈ (final genv ops).deps o := by
  obtain ⟨a, x, b, rfl, ho, hd⟩ := h
  have hva := (validFrom_append genv a _ _).1 hv
  have hsa := (safeFrom_append genv a _ _).1 hs
  have oka := run_ok a (worldOk_init genv) hva.1
  have aca := run_acyclic a (worldOk_init genv) (acyclic_init genv) hva.1 hsa.1
  have ok1 := step_ok (env := genv) oka hva.2.1
  have ac1 := step_acyclic (env := genv) oka aca hva.2.1 hsa.2.1
  have hv1 : ValidFrom genv (World.init genv) (a ++ [.getItem x]) :=
    (validFrom_append genv a _ _).2 ⟨hva.1, hva.2.1, trivial⟩
  obtain ⟨h1, h2⟩ := firstItem_kind hv1 hd
  have hnext := (getItem_next (genv := genv) (final genv a) x).1
  rw [final_snoc] at ho h1 h2
  rw [final_split, final_snoc]
  refine run_keeps_edge b ok1 ac1 hva.2.2 hsa.2.2
    (noCutFrom_of_kind b ok1 hva.2.2 h1 (by rw [h2]; decide) (by rw [h2]; decide)) ?_
  refine step_links hva.1 hva.2.1 ?_
  by_cases hn : .getItem x ∈ a
  · right; right
    have hne : (final genv a).decomp x ≠ none := fun h => (decomp_iff genv a x).2.1 h hn
    rw [if_neg hne] at hnext
    obtain ⟨d', hd'⟩ := Option.ne_none_iff_exists'.1 hne
    have hf := ((decomp_iff genv a x).1 d').1 hd'
    have hf' : FirstItem genv (a ++ [.getItem x]) x d' := by
      obtain ⟨a1, a2, e, e2, e3⟩ := hf
      exact ⟨a1, a2 ++ [.getItem x], by rw [e]; simp, e2, e3⟩
    exact ⟨by omega, firstItem_unique hd hf' ▸ hf⟩
  · right; left
    have he : (final genv a).decomp x = none := (decomp_iff genv a x).2.2 hn
    rw [if_pos he] at hnext
    have hf' : FirstItem genv (a ++ [.getItem x]) x (final genv a).next := ⟨a, [], rfl, rfl, hn⟩
    exact ⟨hn, by omega, firstItem_unique hd hf'⟩

/-- Every variable has exactly one writer. -/
theorem exists_writer {ops : List Op} (hv : ValidFrom genv (World.init genv) ops) (o : Ref) :
    ∃! d, Writes genv ops d o := by
  by_cases h : (final genv ops).kind o = .item
  · obtain ⟨d, hd⟩ := item_from hv h
    refine ⟨d, Or.inl hd, ?_⟩
    rintro d' (h' | h')
    · exact itemOf_unique hv h' hd
    · exact absurd h h'.1
  · refine ⟨o, Or.inr ⟨h, rfl⟩, ?_⟩
    rintro d' (h' | h')
    · exact absurd (itemOf_kind hv h').1 h
    · exact h'.2

/-- The component that writes a needed variable is needed, and comes before what needs the variable. -/
theorem writes_needs {ops : List Op} (hv : ValidFrom genv (World.init genv) ops)
    (hs : SafeFrom genv (World.init genv) ops) {d o u : Ref} (h : Writes genv ops d o)
    (hu : Needs (final genv ops).deps u o) :
    Needs (final genv ops).deps u d := by
  rcases h with h | ⟨_, rfl⟩
  · exact hu.tail (itemOf_edge hv hs h)
  · exact hu

theorem writes_built {ops : List Op} (hv : ValidFrom genv (World.init genv) ops) {d o : Ref}
    (h : Writes genv ops d o) (h0 : (final genv ops).kind o ≠ .root)
    (h1 : (final genv ops).kind o ≠ .input) (h2 : (final genv ops).kind o ≠ .implicitOut) :
    (final genv ops).built d = true := by
  rcases h with h | ⟨h, rfl⟩
  · simp [World.built, (itemOf_kind hv h).2]
  · simp [World.built, h, h0, h1, h2]

end

end OM
