import Verif.Model.Wiring
import Verif.Lemmas.Items
import Verif.Props.GroupApi

/-! # Lemmas about the names read and written by the components -/

namespace OM
open Spec

/-- What the objects remember after the calls `ops` on a new group. -/
abbrev wires (genv : GEnv) (ops : List Op) : Wires :=
  Wires.run genv (World.init genv) Wires.init ops

/-- The objects of the user that a call mentions. -/
def Op.uses : Op → List Ref
  | .combine args => args
  | .getItem x => [x]
  | .registerOutput _ x => [x]
  | .define out e => [out, e]
  | .setItem out e _ => [out, e]
  | .defineResidual out e => [out, e]
  | _ => []

/-- The object that a call made after the calls `a` returns to the user. -/
def Op.Returns (genv : GEnv) (a : List Op) (u : Ref) : Op → Prop
  | .declareInput _ => u = (final genv a).next
  | .createIndep _ => u = (final genv a).next
  | .createOutput _ => u = (final genv a).next
  | .combine _ => u = (final genv a).next
  | .getItem x => u + 1 = (final genv (a ++ [.getItem x])).next
  | _ => False

/-- The user got the object from one of the calls. (Implicit outputs are left out: they are for implicit
components, C48, C49.) -/
def Returned (genv : GEnv) (a : List Op) (u : Ref) : Prop :=
  ∃ a1 op a2, a = a1 ++ op :: a2 ∧ op.Returns genv a1 u

/-- The user only uses objects they got from earlier calls. -/
def UsesReturned (genv : GEnv) (ops : List Op) : Prop :=
  ∀ a op b, ops = a ++ op :: b → ∀ u ∈ op.uses, Returned genv a u

/-- No output is defined by an expression that depends on it. -/
def NoFeedback (genv : GEnv) (ops : List Op) : Prop :=
  ∀ a out e b, ops = a ++ .define out e :: b → ¬ Reach (final genv a).deps e out

/-- The call that added subsystem `s` is among `a`. -/
def AddedIn (genv : GEnv) (a : List Op) (s : Ref) : Prop :=
  ∃ a1 nm a2, a = a1 ++ .addSubsystem nm :: a2 ∧ s = (final genv a1).next

section
variable {genv : GEnv}

theorem wires_append (a b : List Op) : ∀ (w : World) (k : Wires),
    Wires.run genv w k (a ++ b) = Wires.run genv (run genv w a) (Wires.run genv w k a) b := by
  induction a with
  | nil => intro w k; rfl
  | cons op a ih => intro w k; exact ih _ _

theorem wires_snoc (a : List Op) (op : Op) :
    wires genv (a ++ [op]) = (wires genv a).step genv (final genv a) op :=
  wires_append a [op] _ _

theorem Wires.step_define (k : Wires) (w : World) (out e : Ref) :
    k.step genv w (.define out e) =
      if (OM.step genv w (.define out e)).2 = none then
        { k with body := Function.update k.body out e } else k := rfl

theorem Wires.step_setItem (k : Wires) (w : World) (out e : Ref) :
    k.step genv w (.setItem out e none) =
      if w.kind out = .explicitOut then
        { k with keys := Function.update k.keys out (k.keys out ++ [w.name e]) } else k := rfl

/-! ## Kinds of the objects the user gets -/

theorem made_kind {a b : List Op} {op : Op} (hv : ValidFrom genv (World.init genv) (a ++ op :: b))
    {u : Ref} (h : op.Returns genv a u) :
    (0 < u ∧ u < (final genv (a ++ [op])).next) ∧
    (final genv (a ++ op :: b)).kind u = (final genv (a ++ [op])).kind u ∧
    match op with
    | .declareInput _ => (final genv (a ++ [op])).kind u = .input
    | .createIndep _ => (final genv (a ++ [op])).kind u = .indep
    | .createOutput _ => (final genv (a ++ [op])).kind u = .explicitOut
    | .combine _ => (final genv (a ++ [op])).kind u = .expr
    | .getItem _ => (final genv (a ++ [op])).kind u = .item
    | _ => False := by
  have hva := (validFrom_append genv a _ _).1 hv
  have oka := run_ok a (worldOk_init genv) hva.1
  have ok1 := step_ok (env := genv) oka hva.2.1
  have key : (final genv a).next ≤ u → u < (step genv (final genv a) op).1.next →
      (0 < u ∧ u < (final genv (a ++ [op])).next) ∧
      (final genv (a ++ op :: b)).kind u = (final genv (a ++ [op])).kind u := by
    intro h1 h2
    rw [final_split genv a b, final_snoc]
    exact ⟨⟨lt_of_lt_of_le oka.pos h1, h2⟩, run_kind b ok1 hva.2.2 u h2⟩
  cases op with
  | declareInput nm =>
    obtain rfl : u = (final genv a).next := h
    rw [← and_assoc, and_comm]
    refine ⟨?_, ?_⟩
    · rw [final_snoc]; unfold step
      cases hr : (final genv a).recent <;> exact Function.update_self ..
    · refine key le_rfl ?_
      unfold step
      cases hr : (final genv a).recent <;> exact Nat.lt_succ_self _
  | createIndep nm =>
    obtain rfl : u = (final genv a).next := h
    rw [← and_assoc, and_comm]
    refine ⟨?_, ?_⟩
    · rw [final_snoc]; unfold step; simp only
      rw [World.register_keeps.2.1]
      cases hr : (final genv a).recent <;> exact Function.update_self ..
    · refine key le_rfl ?_
      unfold step; simp only
      rw [World.register_keeps.1]
      cases hr : (final genv a).recent <;> exact Nat.lt_succ_self _
  | createOutput nm =>
    obtain rfl : u = (final genv a).next := h
    rw [← and_assoc, and_comm]
    refine ⟨?_, ?_⟩
    · rw [final_snoc]; exact Function.update_self ..
    · exact key le_rfl (Nat.lt_succ_self _)
  | combine args =>
    obtain rfl : u = (final genv a).next := h
    obtain ⟨_, h2, h3, _⟩ := WorldOk.addDeps (env := genv) args
      (oka.alloc .expr (genv.autoName (final genv a).next)) (u := (final genv a).next)
      (Nat.lt_succ_self _) (by simp [World.alloc])
      (fun d hd => ⟨(hva.2.1 d hd).1, Nat.lt_succ_of_lt (hva.2.1 d hd).2⟩)
    rw [← and_assoc, and_comm]
    refine ⟨?_, ?_⟩
    · rw [final_snoc]
      refine (congrFun h3 _).trans ?_
      exact Function.update_self ..
    · refine key le_rfl (lt_of_lt_of_eq (Nat.lt_succ_self _) h2.symm)
  | getItem x =>
    have h' : u + 1 = (step genv (final genv a) (.getItem x)).1.next := by
      rw [← final_snoc]; exact h
    obtain ⟨h1, h2, _⟩ := getItem_next (genv := genv) (final genv a) x
    rw [← and_assoc, and_comm]
    refine ⟨?_, ?_⟩
    · rw [final_snoc]
      rw [← h'] at h2
      exact h2
    · refine key ?_ (by omega)
      rw [h1] at h'
      split at h' <;> omega
  | _ => exact h.elim

/-- The user never gets subsystems, decompositions, implicit outputs or the root. -/
theorem returned_kind {ops : List Op} (hv : ValidFrom genv (World.init genv) ops) {u : Ref}
    (h : Returned genv ops u) :
    (0 < u ∧ u < (final genv ops).next) ∧ ((final genv ops).kind u = .input ∨
      (final genv ops).kind u = .indep ∨ (final genv ops).kind u = .explicitOut ∨
      (final genv ops).kind u = .expr ∨ (final genv ops).kind u = .item) := by
  obtain ⟨a, op, b, rfl, h⟩ := h
  obtain ⟨⟨h1, h2⟩, h3, h4⟩ := made_kind hv h
  have hva := (validFrom_append genv a _ _).1 hv
  have oka := run_ok a (worldOk_init genv) hva.1
  have ok1 := step_ok (env := genv) oka hva.2.1
  refine ⟨⟨h1, lt_of_lt_of_le h2 ?_⟩, ?_⟩
  · rw [final_split genv a b, final_snoc]
    exact run_next b ok1 hva.2.2
  · rw [h3]
    cases op <;> simp_all

theorem Returned.mono {a b : List Op} {u : Ref} (h : Returned genv a u) : Returned genv (a ++ b) u := by
  obtain ⟨a1, op, a2, rfl, h⟩ := h
  exact ⟨a1, op, a2 ++ b, by simp, h⟩

/-! ## Without feedback no dependency is ever lost -/

theorem UsesReturned.left {a b : List Op} (h : UsesReturned genv (a ++ b)) : UsesReturned genv a := by
  intro a1 op a2 e
  exact h a1 op (a2 ++ b) (by rw [e]; simp)

theorem NoFeedback.left {a b : List Op} (h : NoFeedback genv (a ++ b)) : NoFeedback genv a := by
  intro a1 out e a2 h1
  exact h a1 out e (a2 ++ b) (by rw [h1]; simp)

theorem kept {a b : List Op} (hv : ValidFrom genv (World.init genv) (a ++ b))
    (hs : SafeFrom genv (World.init genv) (a ++ b)) (hu : UsesReturned genv (a ++ b))
    (hf : NoFeedback genv (a ++ b)) {u v : Ref} (h : v ∈ (final genv a).deps u) :
    v ∈ (final genv (a ++ b)).deps u := by
  induction b using List.reverseRecOn with
  | nil => rw [List.append_nil]; exact h
  | append_singleton b op ih =>
    rw [← List.append_assoc] at hv hs hu hf ⊢
    have hva := (validFrom_append genv (a ++ b) _ _).1 hv
    have hsa := (safeFrom_append genv (a ++ b) _ _).1 hs
    have ih := ih hva.1 hsa.1 hu.left hf.left
    have ok := run_ok (a ++ b) (worldOk_init genv) hva.1
    have ac := run_acyclic (a ++ b) (worldOk_init genv) (acyclic_init genv) hva.1 hsa.1
    rw [final_snoc]
    refine step_keeps_edge ok ac hva.2.1 ?_ ih
    intro hc
    cases op with
    | define out e =>
      obtain ⟨rfl, _, hr⟩ := hc
      exact hf (a ++ b) out e [] rfl (hr.tail ih)
    | defineResidual out e =>
      obtain ⟨rfl, hk, _⟩ := hc
      have h' := returned_kind hva.1 (hu (a ++ b) _ [] rfl out (by simp [Op.uses]))
      rw [hk] at h'
      simp at h'
    | _ => exact hc

/-! ## Subsystems -/

theorem subsystem_from {ops : List Op} (hv : ValidFrom genv (World.init genv) ops) {s : Ref}
    (h : (final genv ops).kind s = .subsystem) : AddedIn genv ops s := by
  induction ops using List.reverseRecOn with
  | nil =>
    simp only [final, run, List.foldl_nil, World.init] at h
    split at h <;> cases h
  | append_singleton a op ih =>
    have hva := (validFrom_append genv a _ _).1 hv
    have oka := run_ok a (worldOk_init genv) hva.1
    rw [final_snoc] at h
    by_cases hold : (final genv a).kind s = .subsystem
    · obtain ⟨a1, nm, b, rfl, h1⟩ := ih hva.1 hold
      exact ⟨a1, nm, b ++ [op], by simp, h1⟩
    · rcases step_newKinds (env := genv) (w := final genv a) (op := op) s with h' | h'
      · exact absurd (h' ▸ h) hold
      · rw [h] at h'
        cases op with
        | addSubsystem nm =>
          refine ⟨a, nm, [], rfl, ?_⟩
          by_contra hne
          apply hold
          obtain ⟨_, _, h3, _⟩ := WorldOk.addDeps (env := genv) ((final genv a).deps 0)
            (oka.alloc .subsystem nm) (u := (final genv a).next) (Nat.lt_succ_self _)
            (by simp [World.alloc])
            (fun d hd => ⟨(oka.range 0 d hd).1, Nat.lt_succ_of_lt (oka.range 0 d hd).2⟩)
          have h4 : (step genv (final genv a) (.addSubsystem nm)).1.kind s =
              ((final genv a).alloc .subsystem nm).kind s := congrFun h3 s
          rw [h] at h4
          rw [h4]
          show (final genv a).kind s = Function.update (final genv a).kind (final genv a).next _ s
          rw [Function.update_of_ne hne]
        | _ => simp [Op.newKinds] at h'

theorem addedIn_root {a : List Op} (hv : ValidFrom genv (World.init genv) a) {s : Ref}
    (h : AddedIn genv a s) : s ∈ (final genv a).deps 0 := by
  obtain ⟨a1, nm, a2, rfl, rfl⟩ := h
  have hva := (validFrom_append genv a1 _ _).1 hv
  have oka := run_ok a1 (worldOk_init genv) hva.1
  have ok1 := step_ok (env := genv) oka hva.2.1
  rw [final_split, final_snoc]
  exact run_root a2 ok1 hva.2.2 _ (step_addSubsystem (env := genv) oka nm).2.1

/-- An input declared after a subsystem depends on the most recent one, and this depends on all earlier ones. -/
theorem input_after_direct {a b : List Op} {nm : String}
    (hv : ValidFrom genv (World.init genv) (a ++ .declareInput nm :: b))
    (hs : SafeFrom genv (World.init genv) (a ++ .declareInput nm :: b))
    (hu : UsesReturned genv (a ++ .declareInput nm :: b))
    (hf : NoFeedback genv (a ++ .declareInput nm :: b)) {s : Ref} (h : AddedIn genv a s) :
    ∃ r ∈ (final genv (a ++ .declareInput nm :: b)).deps (final genv a).next, AddedIn genv a r ∧
      (r = s ∨ s ∈ (final genv (a ++ .declareInput nm :: b)).deps r) := by
  have hva := (validFrom_append genv a _ _).1 hv
  have e : a ++ .declareInput nm :: b = (a ++ [.declareInput nm]) ++ b := by simp
  -- the most recent subsystem
  obtain ⟨r, hr⟩ : ∃ r, LastSubsystem genv a r := by
    obtain ⟨a1, nm1, a2, rfl, _⟩ := h
    clear hv hs hu hf hva e
    induction a2 using List.reverseRecOn with
    | nil => exact ⟨_, a1, nm1, [], rfl, rfl, by simp⟩
    | append_singleton a2 op ih =>
      obtain ⟨r, c1, nm2, c2, e1, e2, h3⟩ := ih
      by_cases hop : ∃ nm', op = .addSubsystem nm'
      · obtain ⟨nm', rfl⟩ := hop
        exact ⟨_, a1 ++ .addSubsystem nm1 :: a2, nm', [], by simp, rfl, by simp⟩
      · refine ⟨r, c1, nm2, c2 ++ [op], ?_, e2, ?_⟩
        · have : a1 ++ .addSubsystem nm1 :: (a2 ++ [op]) = (a1 ++ .addSubsystem nm1 :: a2) ++ [op] := by
            simp
          rw [this, e1]; simp
        · intro o ho nm' hn
          rcases List.mem_append.1 ho with ho | ho
          · exact h3 o ho nm' hn
          · rw [List.mem_singleton] at ho
            exact hop ⟨nm', by rw [← ho]; exact hn⟩
  have h1 : r ∈ (final genv (a ++ .declareInput nm :: b)).deps (final genv a).next := by
    rw [e] at hv hs hu hf ⊢
    refine kept hv hs hu hf ?_
    rw [final_snoc]
    exact step_links hva.1 hva.2.1 ⟨rfl, hr⟩
  have hra : AddedIn genv a r := by
    obtain ⟨c1, nm1, c2, ec, er, -⟩ := hr
    exact ⟨c1, nm1, c2, ec, er⟩
  refine ⟨r, h1, hra, ?_⟩
  by_cases hrs : r = s
  · exact Or.inl hrs
  · right
    obtain ⟨c1, nm1, c2, ec, rfl, hlast⟩ := hr
    have e2 : a ++ .declareInput nm :: b = (c1 ++ [.addSubsystem nm1]) ++ (c2 ++ .declareInput nm :: b) := by
      rw [ec]; simp
    rw [e2] at hv hs hu hf ⊢
    have hvc := (validFrom_append genv (c1 ++ [.addSubsystem nm1]) _ _).1 hv
    have hvd := (validFrom_append genv c1 _ _).1 hvc.1
    refine kept hv hs hu hf ?_
    rw [final_snoc]
    refine (step_addSubsystem (env := genv) (run_ok c1 (worldOk_init genv) hvd.1) nm1).1 s ?_
    -- `s` was added in `c1`
    obtain ⟨d1, nm2, d2, ed, rfl⟩ := h
    have hin : AddedIn genv c1 (final genv d1).next := by
      rw [ec] at ed
      rcases List.append_eq_append_iff.1 ed with ⟨c, hc, hc2⟩ | ⟨c, hc, hc2⟩
      · cases c with
        | nil =>
          exfalso
          simp only [List.append_nil] at hc
          rw [hc] at hrs
          exact hrs rfl
        | cons op c =>
          exfalso
          simp only [List.cons_append, List.cons.injEq] at hc2
          have : Op.addSubsystem nm2 ∈ c2 := by rw [hc2.2]; simp
          exact hlast _ this nm2 rfl
      · cases c with
        | nil =>
          exfalso
          simp only [List.append_nil] at hc
          rw [hc] at hrs
          exact hrs rfl
        | cons op c =>
          simp only [List.cons_append, List.cons.injEq] at hc2
          exact ⟨d1, nm2, c, by rw [hc, hc2.1], rfl⟩
    exact addedIn_root hvd.1 hin

/-- An input declared after a subsystem depends on it. -/
theorem input_after {a b : List Op} {nm : String}
    (hv : ValidFrom genv (World.init genv) (a ++ .declareInput nm :: b))
    (hs : SafeFrom genv (World.init genv) (a ++ .declareInput nm :: b))
    (hu : UsesReturned genv (a ++ .declareInput nm :: b))
    (hf : NoFeedback genv (a ++ .declareInput nm :: b)) {s : Ref} (h : AddedIn genv a s) :
    Needs (final genv (a ++ .declareInput nm :: b)).deps (final genv a).next s := by
  obtain ⟨r, h1, -, rfl | h2⟩ := input_after_direct hv hs hu hf h
  · exact .single h1
  · exact (Relation.TransGen.single (a := (final genv a).next) h1).tail h2

/-! ## What the objects remember -/

theorem wires_args {a b : List Op} {args : List Ref}
    (hv : ValidFrom genv (World.init genv) (a ++ .combine args :: b)) :
    (wires genv (a ++ .combine args :: b)).args (final genv a).next = args := by
  induction b using List.reverseRecOn with
  | nil =>
    rw [wires_snoc]
    exact Function.update_self ..
  | append_singleton b op ih =>
    have e : a ++ .combine args :: (b ++ [op]) = (a ++ .combine args :: b) ++ [op] := by simp
    rw [e] at hv ⊢
    have hvb := ((validFrom_append genv _ _ _).1 hv).1
    have ih := ih hvb
    rw [wires_snoc]
    cases op with
    | combine args' =>
      show Function.update _ _ _ _ = _
      rw [Function.update_of_ne, ih]
      obtain ⟨⟨_, h2⟩, _⟩ := made_kind (op := .combine args) hvb (u := (final genv a).next) rfl
      have hvc := (validFrom_append genv a _ _).1 hvb
      have : (final genv (a ++ [.combine args])).next ≤ (final genv (a ++ .combine args :: b)).next := by
        rw [final_split genv a b]
        refine run_next b ?_ ?_
        · rw [final_snoc]; exact step_ok (run_ok a (worldOk_init genv) hvc.1) hvc.2.1
        · rw [final_snoc]; exact hvc.2.2
      omega
    | define out e =>
      rw [Wires.step_define]
      split <;> exact ih
    | setItem out e c =>
      cases c with
      | none => rw [Wires.step_setItem]; split <;> exact ih
      | some err => exact ih
    | _ => exact ih

theorem wires_whole {ops : List Op} (hv : ValidFrom genv (World.init genv) ops) {x d : Ref}
    (h : (final genv ops).decomp x = some d) : (wires genv ops).whole d = x := by
  induction ops using List.reverseRecOn generalizing x d with
  | nil => simp [final, run, World.init] at h
  | append_singleton a op ih =>
    have hva := (validFrom_append genv a _ _).1 hv
    have oka := run_ok a (worldOk_init genv) hva.1
    rw [wires_snoc]
    rw [final_snoc] at h
    have other : ∀ {op' : Op}, op = op' → (∀ y, op' ≠ .getItem y) →
        ((wires genv a).step genv (final genv a) op').whole d = (wires genv a).whole d →
        ((wires genv a).step genv (final genv a) op').whole d = x := by
      rintro op' rfl hne he
      rw [step_decomp (hne x)] at h
      rw [he, ih hva.1 h]
    cases op with
    | getItem y =>
      show Function.update (wires genv a).whole (((final genv a).decomp y).getD (final genv a).next) y d = x
      by_cases hxy : x = y
      · subst hxy
        rw [step_decomp_self] at h
        rw [← Option.some.inj h, Function.update_self]
      · rw [step_decomp (by simpa using Ne.symm hxy)] at h
        rw [Function.update_of_ne, ih hva.1 h]
        intro hd
        cases hy : (final genv a).decomp y with
        | none =>
          rw [hy] at hd
          have := (oka.decomp x d h).2
          simp only [Option.getD_none] at hd
          exact absurd hd (Nat.ne_of_lt this)
        | some d' =>
          rw [hy] at hd
          simp only [Option.getD_some] at hd
          rw [← hd] at hy
          exact hxy ((ih hva.1 h).symm.trans (ih hva.1 hy))
    | define out e =>
      refine other rfl (by simp) ?_
      rw [Wires.step_define]; split <;> rfl
    | setItem out e c =>
      refine other rfl (by simp) ?_
      cases c with
      | none => rw [Wires.step_setItem]; split <;> rfl
      | some err => rfl
    | _ => exact other rfl (by simp) rfl

theorem itemOf_snoc {a : List Op} {op : Op} {o d : Ref} :
    ItemOf genv (a ++ [op]) o d ↔ ItemOf genv a o d ∨
      ∃ x, op = .getItem x ∧ o + 1 = (final genv (a ++ [op])).next ∧ FirstItem genv (a ++ [op]) x d := by
  constructor
  · rintro ⟨a1, x, b, e, h1, h2⟩
    rcases List.eq_nil_or_concat b with rfl | ⟨b', op', rfl⟩
    · obtain ⟨rfl, h3⟩ := List.append_inj' e rfl
      simp only [List.cons.injEq, and_true] at h3
      subst h3
      exact Or.inr ⟨x, rfl, h1, h2⟩
    · have e' : a ++ [op] = (a1 ++ .getItem x :: b') ++ [op'] := by rw [e]; simp
      obtain ⟨rfl, _⟩ := List.append_inj' e' rfl
      exact Or.inl ⟨a1, x, b', rfl, h1, h2⟩
  · rintro (⟨a1, x, b, rfl, h1, h2⟩ | ⟨x, rfl, h1, h2⟩)
    · exact ⟨a1, x, b ++ [op], by simp, h1, h2⟩
    · exact ⟨a, x, [], rfl, h1, h2⟩

theorem wires_parts (ops : List Op) (d o : Ref) :
    o ∈ (wires genv ops).parts d ↔ ItemOf genv ops o d := by
  induction ops using List.reverseRecOn with
  | nil => simp [Wires.run, Wires.init, ItemOf]
  | append_singleton a op ih =>
    rw [wires_snoc, itemOf_snoc, ← ih]
    have other : (∀ y, op ≠ .getItem y) →
        ((wires genv a).step genv (final genv a) op).parts = (wires genv a).parts →
        (o ∈ ((wires genv a).step genv (final genv a) op).parts d ↔ o ∈ (wires genv a).parts d ∨
          ∃ x, op = .getItem x ∧ o + 1 = (final genv (a ++ [op])).next ∧
            FirstItem genv (a ++ [op]) x d) := by
      intro hne he
      rw [he]
      constructor
      · exact Or.inl
      · rintro (h | ⟨x, h, _⟩)
        · exact h
        · exact absurd h (hne x)
    cases op with
    | getItem y =>
      show o ∈ Function.update (wires genv a).parts (((final genv a).decomp y).getD (final genv a).next) _ d ↔ _
      have hfi : FirstItem genv (a ++ [.getItem y]) y d ↔
          d = ((final genv a).decomp y).getD (final genv a).next := by
        rw [← (decomp_iff genv _ y).1 d, final_snoc, step_decomp_self, Option.some.injEq, eq_comm]
      have hnext : 0 < (step genv (final genv a) (.getItem y)).1.next := by
        have := (getItem_next (genv := genv) (final genv a) y).1
        split at this <;> omega
      simp only [Op.getItem.injEq, exists_eq_left']
      rw [hfi, final_snoc]
      by_cases hd : d = ((final genv a).decomp y).getD (final genv a).next
      · subst hd
        rw [Function.update_self, List.mem_append, List.mem_singleton]
        simp only [and_true]
        refine or_congr Iff.rfl ?_
        omega
      · rw [Function.update_of_ne hd]
        simp [hd]
    | define out e =>
      refine other (by simp) ?_
      rw [Wires.step_define]; split <;> rfl
    | setItem out e c =>
      refine other (by simp) ?_
      cases c with
      | none => rw [Wires.step_setItem]; split <;> rfl
      | some err => rfl
    | _ => exact other (by simp) rfl

theorem define_defined {w : World} {out e : Ref} (h : (step genv w (.define out e)).2 = none) :
    w.kind out = .explicitOut ∧ w.defined out = false ∧
      (step genv w (.define out e)).1.defined out = true := by
  unfold step at h ⊢
  simp only at h ⊢
  split at h
  · cases h
  · rename_i c1
    split at h
    · cases h
    · rename_i c2
      split at h
      · cases h
      · rename_i c3
        rw [if_neg c1, if_neg c2, if_neg c3]
        split at h
        · cases h
        · exact ⟨by simpa using c1, by simpa using c3, Function.update_self ..⟩

theorem wires_body {a b : List Op} {out e : Ref}
    (hv : ValidFrom genv (World.init genv) (a ++ .define out e :: b))
    (h : (step genv (final genv a) (.define out e)).2 = none) :
    (wires genv (a ++ .define out e :: b)).body out = e := by
  induction b using List.reverseRecOn with
  | nil =>
    rw [wires_snoc]
    rw [Wires.step_define, if_pos h]
    exact Function.update_self ..
  | append_singleton b op ih =>
    have e1 : a ++ .define out e :: (b ++ [op]) = (a ++ .define out e :: b) ++ [op] := by simp
    rw [e1] at hv ⊢
    have hvb := ((validFrom_append genv _ _ _).1 hv).1
    have ih := ih hvb
    rw [wires_snoc]
    cases op with
    | define out' e' =>
      rw [Wires.step_define]
      split
      · rename_i hs
        show Function.update _ _ _ _ = _
        rw [Function.update_of_ne, ih]
        rintro rfl
        have h1 := (define_defined hs).2.1
        have hvc := (validFrom_append genv a _ _).1 hvb
        have h2 := run_defined b (step_ok (run_ok a (worldOk_init genv) hvc.1) hvc.2.1) hvc.2.2 out
          (define_defined h).2.2
        rw [← final_snoc, ← final_split] at h2
        rw [h2] at h1
        cases h1
      · exact ih
    | setItem out' e' c =>
      cases c with
      | none => rw [Wires.step_setItem]; split <;> exact ih
      | some err => exact ih
    | _ => exact ih

/-- The names remembered for indexed assignments are the names the operands had. -/
theorem wires_keys_mem {ops : List Op} {out : Ref} {n : String}
    (h : n ∈ (wires genv ops).keys out) :
    ∃ a e b, ops = a ++ .setItem out e none :: b ∧ n = (final genv a).name e ∧
      (final genv a).kind out = .explicitOut := by
  induction ops using List.reverseRecOn with
  | nil => simp [Wires.run, Wires.init] at h
  | append_singleton a op ih =>
    rw [wires_snoc] at h
    have other : ((wires genv a).step genv (final genv a) op).keys = (wires genv a).keys →
        ∃ c e b, a ++ [op] = c ++ .setItem out e none :: b ∧ n = (final genv c).name e ∧
          (final genv c).kind out = .explicitOut := by
      intro he
      rw [he] at h
      obtain ⟨c, e, b, rfl, h1⟩ := ih h
      exact ⟨c, e, b ++ [op], by simp, h1⟩
    cases op with
    | setItem out' e' c =>
      cases c with
      | none =>
        rw [Wires.step_setItem] at h
        split at h
        · rename_i hk
          change n ∈ Function.update (wires genv a).keys out' _ out at h
          by_cases ho : out = out'
          · subst ho
            rw [Function.update_self, List.mem_append, List.mem_singleton] at h
            rcases h with h | h
            · obtain ⟨c, e, b, rfl, h1⟩ := ih h
              exact ⟨c, e, b ++ [.setItem out e' none], by simp, h1⟩
            · exact ⟨a, e', [], rfl, h, hk⟩
          · rw [Function.update_of_ne ho] at h
            obtain ⟨c, e, b, rfl, h1⟩ := ih h
            exact ⟨c, e, b ++ [.setItem out' e' none], by simp, h1⟩
        · obtain ⟨c, e, b, rfl, h1⟩ := ih h
          exact ⟨c, e, b ++ [.setItem out' e' none], by simp, h1⟩
      | some err => exact other rfl
    | define out' e' =>
      refine other ?_
      rw [Wires.step_define]; split <;> rfl
    | _ => exact other rfl

end

end OM
