import Verif.Props.Group
import Verif.Props.Exec
import Verif.Model.Wiring

/-! # C94: inputs declared under the name of an output of the same group -/

namespace OM
open Spec

variable {V : String → Type}

theorem runAll_keeps {l : List (Comp V)} {s : Store V} {n : String} (h : ∀ c ∈ l, n ∉ c.writes) : runAll l s n = s n := by
  induction l generalizing s with
  | nil => rfl
  | cons c l ih =>
    have e : runAll (c :: l) s = runAll l (c.run s) := rfl
    rw [e, ih fun c' hc' => h c' (List.mem_cons_of_mem _ hc')]
    unfold Comp.run
    rw [if_neg (h c (by simp))]

/-- **C94**, exact: in one run a component reads, under each name, what the group has in the end if the component that writes
the name runs before it, and what was there at the start if not; whatever object of the program the name stands for. -/
theorem c94_exact {comp : Ref → Comp V} {comps a b : List Ref} {u : Ref} (hl : comps = a ++ u :: b)
    (own : ∀ v ∈ comps, ∀ v' ∈ comps, ∀ n ∈ (comp v).writes, n ∈ (comp v').writes → v = v') (hnd : comps.Nodup)
    (init : Store V) :
    ∃ seen : Store V,
      (∀ n ∈ (comp u).writes, runAll (comps.map comp) init n = (comp u).f (fun i => seen (comp u).reads[i]) n) ∧
      (∀ n, (∃ v ∈ a, n ∈ (comp v).writes) → seen n = runAll (comps.map comp) init n) ∧
      ∀ n, (∀ v ∈ a, n ∉ (comp v).writes) → seen n = init n := by
  subst hl
  refine ⟨runAll (a.map comp) init, ?_, ?_, ?_⟩
  · intro n hn
    rw [List.map_append, List.map_cons, runAll_append]
    show runAll (b.map comp) ((comp u).run (runAll (a.map comp) init)) n = _
    rw [runAll_keeps]
    · unfold Comp.run
      rw [if_pos hn]
    · intro c hc hcn
      obtain ⟨v, hv, rfl⟩ := List.mem_map.1 hc
      have := own v (by simp [hv]) u (by simp) n hcn hn
      subst this
      exact (List.nodup_cons.1 (List.nodup_append.1 hnd).2.1).1 hv
  · rintro n ⟨v, hv, hvn⟩
    rw [List.map_append, runAll_append]
    symm
    apply runAll_keeps
    intro c hc hcn
    obtain ⟨v', hv', rfl⟩ := List.mem_map.1 hc
    have := own v (by simp [hv]) v' (by simp at hv' ⊢; tauto) n hvn hcn
    subst this
    exact (List.nodup_append.1 hnd).2.2 v hv v hv' rfl
  · intro n hn
    apply runAll_keeps
    intro c hc
    obtain ⟨v, hv, rfl⟩ := List.mem_map.1 hc
    exact hn v hv

/-- **C94**, what holds: an expression that reads the name of an output through an input and also needs, directly or not, the
object that writes it, reads the value of the output. -/
theorem c94_needs_partial {genv : GEnv} {env : SetupEnv} {ops : List Op} (h : GroupOk genv env ops) {comps : List Ref}
    (hc : setupGroup env (final genv ops) = .ok comps) {comp : Ref → Comp V}
    (own : ∀ v ∈ comps, ∀ v' ∈ comps, ∀ n ∈ (comp v).writes, n ∈ (comp v').writes → v = v') {u : Ref} (hu : u ∈ comps)
    (init : Store V) :
    ∃ seen : Store V,
      (∀ n ∈ (comp u).writes, runAll (comps.map comp) init n = (comp u).f (fun i => seen (comp u).reads[i]) n) ∧
      ∀ v ∈ comps, Needs (final genv ops).deps u v → ∀ n ∈ (comp v).writes, seen n = runAll (comps.map comp) init n := by
  obtain ⟨hnd, hm⟩ : comps.Nodup ∧ ∀ u, u ∈ comps ↔ Needs (final genv ops).deps 0 u ∧ (final genv ops).built u = true := by
    obtain ⟨l, h2, h3, _, h4⟩ := setupGroup_eq h
    rw [h4] at hc
    by_cases hd : ∃ u ∈ l, (final genv ops).undefinedOut u
    · rw [buildAll_error l hd] at hc; cases hc
    · rw [buildAll_ok l (by simpa using hd)] at hc
      cases hc
      exact ⟨h2.filter _, fun u => by rw [List.mem_filter, h3]⟩
  obtain ⟨a, b, hl⟩ := List.append_of_mem hu
  obtain ⟨seen, h1, h2, _⟩ := c94_exact hl own hnd init
  refine ⟨seen, h1, fun v hv hn n hvn => h2 n ⟨v, ?_, hvn⟩⟩
  exact before_mem_prefix hnd hl (setupGroup_before h hc ((hm u).1 hu).1 hn ((hm u).1 hu).2 ((hm v).1 hv).2)

/-! ## The order is not controlled -/

/-- `y = f(x)` and `w = g(y)`, where `y` is read through an input declared with that name. -/
def sharedNameOps : List Op :=
  [.createIndep "x", .combine [1], .declareInput "y", .combine [3], .registerOutput "y" 2, .registerOutput "w" 4]

/-- Sets of objects in the opposite order. -/
def backwards : SetOrder Ref :=
  ⟨fun l => l.dedup.reverse, fun _ => List.nodup_reverse.2 (List.nodup_dedup _), fun _ _ => by
    rw [List.mem_reverse]; exact List.mem_dedup⟩

def backEnv : SetupEnv := ⟨backwards, pyOrder, 1000, true⟩
def backGEnv : GEnv := ⟨backwards, 50, demoGEnv.autoName⟩

/-- **C94, refuted**: nothing makes `g` run after `f`. Python's order of a set of objects decides (it depends on their
addresses), and with one of the two orders `w` is computed from the value that `y` had before the run, whatever `f` and `g` are. -/
theorem c94_violated {α : Type} (m : Meaning α) (init : Store fun _ => α) :
    (∃ comps, setupGroup demoEnv (final demoGEnv sharedNameOps) = .ok comps ∧
      let s := runAll (comps.map (compOf m (final demoGEnv sharedNameOps)
        (Wires.run demoGEnv (World.init demoGEnv) Wires.init sharedNameOps))) init
      s "y" = m.op 2 [m.const 1] ∧ s "w" = m.op 4 [s "y"]) ∧
    ∃ comps, setupGroup backEnv (final backGEnv sharedNameOps) = .ok comps ∧
      let s := runAll (comps.map (compOf m (final backGEnv sharedNameOps)
        (Wires.run backGEnv (World.init backGEnv) Wires.init sharedNameOps))) init
      s "y" = m.op 2 [m.const 1] ∧ s "w" = m.op 4 [init "y"] := by
  refine ⟨⟨[1, 2, 4], by decide, ?_, ?_⟩, [1, 4, 2], by decide, ?_, ?_⟩
  · rfl
  · rfl
  · rfl
  · rfl

/-- `f = g = (· + 1)`, `x = 5`, `y` 0 before the run: `w` is 7 or 1. -/
example :
    let m : Meaning Int := ⟨fun _ => 5, fun _ l => l.sum + 1, fun _ v => v, fun _ l => l.sum, fun _ => [], fun _ => [], fun _ _ _ => 0⟩
    m.op 4 [m.op 2 [m.const 1]] = 7 ∧ m.op 4 [0] = 1 := by decide

/-- `w = g(y, f(x))` with `y` an input and `f(x)` the object itself. -/
def sharedUseOps : List Op :=
  [.createIndep "x", .combine [1], .declareInput "y", .combine [3, 2], .registerOutput "y" 2, .registerOutput "w" 4]

theorem sharedUse_groupOk : GroupOk backGEnv backEnv sharedUseOps :=
  groupOk_of_check (by decide) ⟨trivial, trivial, trivial, trivial, trivial, trivial, trivial⟩ (by decide) 8 pyOrder_ascending
    (by decide)

example {α : Type} (m : Meaning α) (init : Store fun _ => α) :
    let comp := compOf m (final backGEnv sharedUseOps) (Wires.run backGEnv (World.init backGEnv) Wires.init sharedUseOps)
    ∃ seen : Store fun _ => α,
      (∀ n ∈ (comp 4).writes, runAll ([1, 2, 4].map comp) init n = (comp 4).f (fun i => seen (comp 4).reads[i]) n) ∧
      ∀ v ∈ [1, 2, 4], Needs (final backGEnv sharedUseOps).deps 4 v → ∀ n ∈ (comp v).writes,
        seen n = runAll ([1, 2, 4].map comp) init n := by
  refine c94_needs_partial sharedUse_groupOk (by decide) ?_ (by decide) init
  have h1 : (compOf m (final backGEnv sharedUseOps)
    (Wires.run backGEnv (World.init backGEnv) Wires.init sharedUseOps) 1).writes = ["x"] := rfl
  have h2 : (compOf m (final backGEnv sharedUseOps)
    (Wires.run backGEnv (World.init backGEnv) Wires.init sharedUseOps) 2).writes = ["y"] := rfl
  have h4 : (compOf m (final backGEnv sharedUseOps)
    (Wires.run backGEnv (World.init backGEnv) Wires.init sharedUseOps) 4).writes = ["w"] := rfl
  intro v hv v' hv' n hn hn'
  simp only [List.mem_cons, List.not_mem_nil, or_false] at hv hv'
  rcases hv with rfl | rfl | rfl <;> rcases hv' with rfl | rfl | rfl <;> simp_all

end OM
