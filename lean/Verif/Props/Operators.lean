import Verif.Model.Operators
import Verif.Props.GroupApi
import Verif.Props.Arith

/-! # Operators and the kinds of their operands (C81) -/

namespace OM
open Spec

/-- An operand that the classes of the operators handle. -/
def Spec.Handled : PyArg → Prop
  | .other => False
  | _ => True

/-- **C81**, on the left of an expression: an object that is neither a number nor an array raises `TypeError`, and so
does any base of a power. -/
theorem c81_left (op : BinOp) (n : String) (s : List Nat) (c : Const) :
    binary op .other (.var n s) = .error .typeError ∧
    binary .pow (.const c) (.var n s) = .error .typeError := by
  cases op <;> exact ⟨rfl, rfl⟩

/-- **C81**, sums, differences, products and quotients of expressions and constants: the operands are refused, or the
result depends on all expressions, has their shape, and has a component. -/
theorem c81_handled_partial {op : BinOp} (hop : op ≠ .pow) {a b : PyArg} {r : OpResult}
    (ha : Handled a) (hb : Handled b) (hv : ∃ n s, a = .var n s ∨ b = .var n s)
    (hl : ∀ c, a ≠ .const (.arr c)) (h : binary op a b = .ok r) :
    ∃ deps comp s, r = .expr deps s (some comp) ∧
      ∀ n t, a = .var n t ∨ b = .var n t → n ∈ deps ∧ t = s := by
  obtain ⟨n0, s0, hv⟩ := hv
  cases a with
  | other => exact ha.elim
  | var n1 s1 =>
    cases b with
    | other => exact hb.elim
    | const c =>
      have key : ∃ comp, r = .expr [n1] s1 (some comp) := by
        cases op with
        | pow => exact absurd rfl hop
        | div =>
          cases c with
          | num c =>
            simp only [binary, elementwise, PyArg.operand?, buildDiv, PyArg.deps, opShape] at h
            split at h
            · cases h
            · cases h; exact ⟨_, rfl⟩
          | arr c =>
            simp only [binary, elementwise, PyArg.operand?, buildDiv, PyArg.deps, opShape] at h
            split at h
            · split at h
              · cases h
              · cases h; exact ⟨_, rfl⟩
            · cases h
        | add => cases h; exact ⟨_, rfl⟩
        | sub => cases h; exact ⟨_, rfl⟩
        | mul => cases h; exact ⟨_, rfl⟩
      obtain ⟨comp, rfl⟩ := key
      refine ⟨_, comp, _, rfl, fun n t e => ?_⟩
      rcases e with e | e <;> cases e
      exact ⟨List.mem_singleton_self _, rfl⟩
    | var n2 s2 =>
      have key : ∃ comp, r = .expr [n1, n2] s2 (some comp) ∧ s1 = s2 := by
        cases op with
        | pow => exact absurd rfl hop
        | _ =>
          simp only [binary, elementwise, PyArg.operand?, buildAdd, buildSub, buildMul, buildDiv, PyArg.deps,
            opShape] at h
          split at h
          · rename_i e; cases h; exact ⟨_, rfl, e⟩
          · cases h
      obtain ⟨comp, rfl, rfl⟩ := key
      refine ⟨_, comp, _, rfl, fun n t e => ?_⟩
      rcases e with e | e <;> cases e <;> simp
  | const c =>
    cases c with
    | arr c => exact absurd rfl (hl c)
    | num c =>
      rcases hv with hv | rfl
      · cases hv
      · have key : ∃ comp, r = .expr [n0] s0 (some comp) := by
          cases op with
          | pow => exact absurd rfl hop
          | _ => cases h; exact ⟨_, rfl⟩
        obtain ⟨comp, rfl⟩ := key
        refine ⟨_, comp, _, rfl, fun n t e => ?_⟩
        rcases e with e | e <;> cases e
        exact ⟨List.mem_singleton_self _, rfl⟩

/-- **C81**, powers with a constant exponent. -/
theorem c81_power_partial (n : String) (s : List Nat) (c : Const) :
    binary .pow (.var n s) (.const c) = .ok (.expr [n] s (some (.pow (buildPow n s c)))) := rfl

/-- **C81, refuted.** On the right of an expression any object is accepted: the result is an expression without a
component. -/
theorem c81_right {op : BinOp} (hop : op ≠ .pow) (n : String) (s : List Nat) :
    binary op (.var n s) .other = .ok (.expr [n] s none) := by
  cases op <;> first | exact absurd rfl hop | rfl

/-- **C81, refuted again.** `x ** y` for an expression `y` is accepted: the result has no component, does not depend
on `y`, and has the shape `(1,)` whatever the shapes of `x` and `y` are. -/
theorem c81_variable_exponent (n m : String) (s t : List Nat) :
    binary .pow (.var n s) (.var m t) = .ok (.expr [n] [1] none) ∧
    binary .pow (.var n s) .other = .ok (.expr [n] [1] none) := ⟨rfl, rfl⟩

theorem unbuilt_ok {genv : GEnv} {w : World} (ok : WorldOk w) {args : List Ref}
    (hargs : ∀ a ∈ args, 0 < a ∧ a < w.next) :
    WorldOk (w.unbuilt genv args) ∧ w.next < (w.unbuilt genv args).next ∧
      (w.unbuilt genv args).kind w.next = .item := by
  have hk : ∀ (l : List Ref) (w' : World), (l.foldl (fun w' a => w'.addDep genv w.next a) w').kind = w'.kind ∧
      (l.foldl (fun w' a => w'.addDep genv w.next a) w').next = w'.next := by
    intro l
    induction l with
    | nil => intro w'; exact ⟨rfl, rfl⟩
    | cons a l ih => intro w'; exact ih (w'.addDep genv w.next a)
  refine ⟨(WorldOk.addDeps args (ok.alloc .item (genv.autoName w.next)) (Nat.lt_succ_self _)
      (by simp [World.alloc]) (fun d hd => ⟨(hargs d hd).1, Nat.lt_succ_of_lt (hargs d hd).2⟩)).1, ?_, ?_⟩
  · unfold World.unbuilt
    rw [(hk args _).2]; exact Nat.lt_succ_self _
  · unfold World.unbuilt
    rw [(hk args _).1]; exact Function.update_self ..

theorem item_no_component {env : SetupEnv} {w : World} {comps : List Ref} {u : Ref}
    (hk : w.kind u = .item) (h : setupGroup env w = .ok comps) : u ∉ comps := by
  have hb : ∀ (l comps : List Ref), buildAll w l = .ok comps → u ∉ comps := by
    intro l
    induction l with
    | nil => intro comps h; cases h; simp
    | cons v l ih =>
      intro comps h
      rw [buildAll] at h
      split at h
      · cases h
      · cases hl : buildAll w l with
        | error e => rw [hl] at h; cases h
        | ok cs =>
          rw [hl] at h
          have h' := Except.ok.inj h
          split at h'
          · rw [← h']; exact ih cs hl
          · rename_i hn
            rw [← h', List.mem_cons]
            rintro (rfl | hm)
            · exact hn (Or.inr (Or.inr (Or.inl hk)))
            · exact ih cs hl hm
  unfold setupGroup at h
  split at h
  · cases h
  · exact hb _ _ h

/-- What follows in a group: after any calls `a`, an expression without `build` is made of `args`, and any calls `b`
follow. `setup` makes no component for it, and a run leaves the initial value in its place. -/
theorem c81_never_computed {V : String → Type} {genv : GEnv} {env : SetupEnv} {a b : List Op} {args comps : List Ref}
    {u : Ref} {w : World} (ha : ValidFrom genv (World.init genv) a) (hu : u = (final genv a).next)
    (hargs : ∀ x ∈ args, 0 < x ∧ x < u)
    (hb : ValidFrom genv ((final genv a).unbuilt genv args) b) (hw : w = run genv ((final genv a).unbuilt genv args) b)
    (h : setupGroup env w = .ok comps) (comp : Ref → Comp V)
    (hown : ∀ v, v ≠ u → w.name u ∉ (comp v).writes) (init : Store V) :
    u ∉ comps ∧ runAll (comps.map comp) init (w.name u) = init (w.name u) := by
  subst hu
  obtain ⟨ok, hlt, hk⟩ := unbuilt_ok (run_ok a (worldOk_init genv) ha) hargs
  have hk' : w.kind (final genv a).next = .item := by
    rw [hw, run_kind b ok hb _ hlt]; exact hk
  have hu := item_no_component hk' h
  refine ⟨hu, ?_⟩
  have hr : ∀ (l : List Ref), (final genv a).next ∉ l → ∀ s : Store V,
      runAll (l.map comp) s (w.name (final genv a).next) = s (w.name (final genv a).next) := by
    intro l
    induction l with
    | nil => intro _ s; rfl
    | cons v l ih =>
      intro hm s
      rw [List.mem_cons, not_or] at hm
      show runAll (l.map comp) ((comp v).run s) _ = _
      rw [ih hm.2]
      exact if_neg (hown v (Ne.symm hm.1))
  exact hr comps hu init

/-- `x ** y`, then an expression of the result registered as `w`: the calls and the setup succeed. -/
def powerWorld : World :=
  run demoGEnv ((final demoGEnv [.createIndep "x", .createIndep "y"]).unbuilt demoGEnv [1])
    [.combine [3], .registerOutput "w" 4]

example : setupGroup demoEnv powerWorld = .ok [1, 2, 4] ∧ powerWorld.deps 4 = [3] ∧ powerWorld.deps 3 = [1] := by
  decide +kernel

example : 3 ∉ [1, 2, 4] ∧ runAll ([1, 2, 4].map doubleComp) (fun _ => (0 : Int)) (powerWorld.name 3) = 0 :=
  c81_never_computed (genv := demoGEnv) (env := demoEnv) (w := powerWorld)
    (a := [.createIndep "x", .createIndep "y"]) (args := [1])
    (b := [.combine [3], .registerOutput "w" 4]) (by decide) (by decide) (by decide) (by decide) rfl (by decide +kernel)
    doubleComp
    (fun v _ => by
      have e : powerWorld.name 3 = "_" := by decide
      rw [e]; simp only [doubleComp, exprComp, if_false, List.mem_singleton]; split <;> decide) _

example : ∃ r, binary .sub (.const (.num 2)) (.var "x" [3]) = .ok r ∧ ∃ deps comp, r = .expr deps [3] (some comp) := by
  refine ⟨_, rfl, ?_⟩
  obtain ⟨deps, comp, s, h, h'⟩ := c81_handled_partial (op := .sub) (by decide) (a := .const (.num 2))
    (b := .var "x" [3]) trivial trivial ⟨"x", [3], .inr rfl⟩ (fun c => by simp) rfl
  obtain ⟨_, rfl⟩ := h' "x" [3] (.inr rfl)
  exact ⟨deps, comp, h⟩

end OM
