import Verif.Model.PrintDag
import Verif.Spec.Graph
import Mathlib.Data.List.Basic

/-!
# C92: `print_dag` shows everything a variable is computed from
-/

namespace OM

variable {g : Graph}

/-- The last objects of all paths of `k` steps from `x` along dependencies, in the order of the dependencies. -/
def pathEnds (g : Nat → List Nat) : Nat → Nat → List Nat
  | 0, x => [x]
  | k + 1, x => (g x).flatMap (pathEnds g k)

/-- The objects with lines at the indentation `k`, in order. -/
def atIndent (k : Nat) (ls : List DagLine) : List Ref :=
  ls.filterMap fun | .node i x => if i = k then some x else none | .leaf _ => none

/-- The objects said to have no dependencies, in order. -/
def leafLines (ls : List DagLine) : List Ref := ls.filterMap fun | .node _ _ => none | .leaf x => some x

/-- All objects shown, in order. -/
def nodeLines (ls : List DagLine) : List Ref := ls.filterMap fun | .node _ x => some x | .leaf _ => none

/-- Levels are shown up to the given depth, and at least the object itself; all of them for a negative depth. -/
def Shows (depth : Int) (k : Nat) : Prop := depth < 0 ∨ k = 0 ∨ (k : Int) < depth

instance (depth : Int) (k : Nat) : Decidable (Shows depth k) := by unfold Shows; infer_instance

theorem mapM_forall2 {α β ε : Type} {f : α → Except ε β} (xs : List α) : ∀ {ys : List β}, xs.mapM f = .ok ys →
    List.Forall₂ (fun x y => f x = .ok y) xs ys := by
  induction xs with
  | nil => intro ys h; rw [List.mapM_nil] at h; cases h; exact .nil
  | cons x xs ih =>
    intro ys h
    rw [List.mapM_cons] at h
    cases hx : f x with
    | error e => rw [hx] at h; cases h
    | ok y =>
      rw [hx] at h
      cases hxs : xs.mapM f with
      | error e => rw [hxs] at h; cases h
      | ok zs =>
        rw [hxs] at h
        cases h
        exact .cons hx (ih hxs)

theorem printDag_inv {limit : Nat} {depth : Int} {indent : Nat} {x : Ref} {ls : List DagLine}
    (h : printDag g (limit + 1) depth indent x = .ok ls) :
    ∃ kids : List (List DagLine), ls = (DagLine.node indent x :: if g x = [] then [.leaf x] else []) ++ kids.flatten ∧
      (depth = 0 ∨ depth = 1 → kids = []) ∧
      (depth ≠ 0 → depth ≠ 1 → List.Forall₂ (fun y l =>
        printDag g limit (if depth > 0 then depth - 1 else depth) (indent + 1) y = .ok l) (g x) kids) := by
  rw [printDag] at h
  simp only [List.length_eq_zero_iff] at h
  by_cases hd : (if depth > 0 then depth - 1 else depth) ≠ 0
  · rw [if_pos hd] at h
    split at h
    · cases h
    · rename_i kids hk
      refine ⟨kids, (Except.ok.inj h).symm, ?_, fun _ _ => mapM_forall2 _ hk⟩
      rintro (rfl | rfl) <;> simp at hd
  · rw [if_neg hd] at h
    refine ⟨[], by rw [← Except.ok.inj h]; simp, fun _ => rfl, fun h0 h1 => ?_⟩
    exfalso
    apply hd
    split <;> omega

/-- **C92**, the order of the lines: the variable comes first, then, for one dependency after the other, what `print_dag` prints for
it, one level deeper. -/
theorem c92_order {limit : Nat} {depth : Int} {indent : Nat} {x : Ref} {ls : List DagLine}
    (h : printDag g (limit + 1) depth indent x = .ok ls) (hd : depth < 0 ∨ 1 < depth) :
    ∃ kids : List (List DagLine), ls = [.node indent x] ++ (if g x = [] then [.leaf x] else []) ++ kids.flatten ∧
      List.Forall₂ (fun y l => printDag g limit (if depth < 0 then depth else depth - 1) (indent + 1) y = .ok l) (g x) kids := by
  obtain ⟨kids, h1, _, h2⟩ := printDag_inv h
  have he : (if depth < 0 then depth else depth - 1) = if depth > 0 then depth - 1 else depth := by
    split <;> split <;> omega
  rw [he]
  exact ⟨kids, h1, h2 (by omega) (by omega)⟩

theorem atIndent_append (k : Nat) (a b : List DagLine) : atIndent k (a ++ b) = atIndent k a ++ atIndent k b :=
  List.filterMap_append

theorem atIndent_own (k indent : Nat) (x : Ref) (p : Prop) [Decidable p] :
    atIndent k (DagLine.node indent x :: if p then [.leaf x] else []) = if indent = k then [x] else [] := by
  unfold atIndent
  by_cases h : indent = k <;> by_cases hp : p <;> simp [h, hp]

/-- **C92**, exactly: if `print_dag` ends without exception, the lines with indentation `k` are those for the ends of all
paths of `k` steps from the variable, in the order of the dependencies, for every `k` smaller than the depth (and for `k = 0`), or
for every `k` if the depth is negative; there are no other lines for objects. -/
theorem c92_levels {limit : Nat} : ∀ {depth : Int} {indent : Nat} {x : Ref} {ls : List DagLine},
    printDag g limit depth indent x = .ok ls → ∀ k,
      atIndent (indent + k) ls = (if Shows depth k then pathEnds g k x else []) ∧
      (k < indent → atIndent k ls = []) := by
  induction limit with
  | zero => intro depth indent x ls h; cases h
  | succ limit ih =>
    intro depth indent x ls h k
    obtain ⟨kids, rfl, h1, h2⟩ := printDag_inv h
    constructor
    · rw [atIndent_append, atIndent_own]
      have hS0 : Shows depth 0 := Or.inr (Or.inl rfl)
      by_cases hd : depth = 0 ∨ depth = 1
      · rw [h1 hd]
        cases k with
        | zero => rw [if_pos (by simp), if_pos hS0]; rfl
        | succ k =>
          rw [if_neg (by omega), if_neg]
          · rfl
          · unfold Shows; omega
      · replace h2 := h2 (fun h => hd (.inl h)) (fun h => hd (.inr h))
        generalize hd' : (if depth > 0 then depth - 1 else depth) = depth' at h2
        cases k with
        | zero =>
          rw [if_pos (by simp), if_pos hS0]
          have : atIndent (indent + 0) kids.flatten = [] := by
            clear hd h h1
            generalize g x = ys at h2
            induction h2 with
            | nil => rfl
            | cons hy _ ih2 =>
              rw [List.flatten_cons, atIndent_append, (ih hy (indent + 0)).2 (by omega), List.nil_append]
              exact ih2
          rw [this]
          rfl
        | succ k =>
          rw [if_neg (by omega), List.nil_append]
          have hS : Shows depth (k + 1) ↔ Shows depth' k := by
            unfold Shows
            split at hd' <;> omega
          have : atIndent (indent + (k + 1)) kids.flatten =
              if Shows depth' k then (g x).flatMap (pathEnds g k) else [] := by
            clear hd h h1
            generalize g x = ys at h2
            induction h2 with
            | nil => simp [atIndent]
            | cons hy _ ih2 =>
              rw [List.flatten_cons, atIndent_append, ih2]
              have := (ih hy k).1
              rw [show indent + (k + 1) = indent + 1 + k by omega, this]
              by_cases hs : Shows depth' k <;> simp [hs]
          rw [this]
          by_cases hs : Shows depth' k
          · rw [if_pos hs, if_pos (hS.2 hs)]; rfl
          · rw [if_neg hs, if_neg (fun h => hs (hS.1 h))]
    · intro hk
      rw [atIndent_append, atIndent_own, if_neg (by omega), List.nil_append]
      by_cases hd : depth = 0 ∨ depth = 1
      · rw [h1 hd]; rfl
      · replace h2 := h2 (fun h => hd (.inl h)) (fun h => hd (.inr h))
        generalize (if depth > 0 then depth - 1 else depth) = depth' at h2
        clear hd h h1
        generalize g x = ys at h2
        induction h2 with
        | nil => rfl
        | cons hy _ ih2 =>
          rw [List.flatten_cons, atIndent_append, (ih hy k).2 (by omega), List.nil_append]
          exact ih2

open Classical in
/-- **C92**: an object is said to have no dependencies once for every line for it, if it has none. -/
theorem c92_leaves {limit : Nat} : ∀ {depth : Int} {indent : Nat} {x : Ref} {ls : List DagLine},
    printDag g limit depth indent x = .ok ls → leafLines ls = (nodeLines ls).filter fun y => g y = [] := by
  induction limit with
  | zero => intro depth indent x ls h; cases h
  | succ limit ih =>
    intro depth indent x ls h
    obtain ⟨kids, rfl, h1, h2⟩ := printDag_inv h
    have hk : leafLines kids.flatten = (nodeLines kids.flatten).filter fun y => g y = [] := by
      by_cases hd : depth = 0 ∨ depth = 1
      · rw [h1 hd]; rfl
      · replace h2 := h2 (fun h => hd (.inl h)) (fun h => hd (.inr h))
        generalize (if depth > 0 then depth - 1 else depth) = depth' at h2
        clear hd h h1
        generalize g x = ys at h2
        induction h2 with
        | nil => rfl
        | cons hy _ ih2 =>
          have e1 : ∀ a b, leafLines (a ++ b) = leafLines a ++ leafLines b := fun _ _ => List.filterMap_append
          have e2 : ∀ a b, nodeLines (a ++ b) = nodeLines a ++ nodeLines b := fun _ _ => List.filterMap_append
          rw [List.flatten_cons, e1, e2, List.filter_append, ← ih hy, ← ih2]
    have e1 : ∀ a b, leafLines (a ++ b) = leafLines a ++ leafLines b := fun _ _ => List.filterMap_append
    have e2 : ∀ a b, nodeLines (a ++ b) = nodeLines a ++ nodeLines b := fun _ _ => List.filterMap_append
    rw [e1, e2, List.filter_append, hk]
    by_cases hx : g x = [] <;> simp [leafLines, nodeLines, hx]

theorem mapM_all_ok {α β ε : Type} {f : α → Except ε β} (xs : List α) (h : ∀ x ∈ xs, ∃ y, f x = .ok y) :
    ∃ ys, xs.mapM f = .ok ys := by
  induction xs with
  | nil => exact ⟨[], rfl⟩
  | cons x xs ih =>
    obtain ⟨y, hy⟩ := h x (by simp)
    obtain ⟨ys, hys⟩ := ih fun z hz => h z (by simp [hz])
    exact ⟨y :: ys, by rw [List.mapM_cons, hy, hys]; rfl⟩

theorem mapM_some_error {α β ε : Type} {f : α → Except ε β} {e : ε} (xs : List α)
    (hf : ∀ x e', f x = .error e' → e' = e) (h : ∃ x ∈ xs, ∀ y, f x ≠ .ok y) : xs.mapM f = .error e := by
  induction xs with
  | nil => obtain ⟨x, hx, _⟩ := h; cases hx
  | cons x xs ih =>
    rw [List.mapM_cons]
    cases hx : f x with
    | error e' => rw [hf x e' hx]; rfl
    | ok y =>
      have : xs.mapM f = .error e := ih (by
        obtain ⟨z, hz, hno⟩ := h
        rcases List.mem_cons.1 hz with rfl | hz
        · exact absurd hx (hno y)
        · exact ⟨z, hz, hno⟩)
      rw [this]
      rfl

/-- **C92**, exactly: `print_dag` ends without exception if and only if no path shown is longer than the recursion limit;
otherwise it raises RecursionError. -/
theorem c92_recursion {limit : Nat} : ∀ {depth : Int} {indent : Nat} {x : Ref},
    ((∃ ls, printDag g limit depth indent x = .ok ls) ↔ ¬ (Shows depth limit ∧ pathEnds g limit x ≠ [])) ∧
    ∀ e, printDag g limit depth indent x = .error e → e = .recursionError := by
  induction limit with
  | zero =>
    intro depth indent x
    refine ⟨iff_of_false (by rintro ⟨ls, h⟩; cases h) (fun h => h ⟨Or.inr (Or.inl rfl), by simp [pathEnds]⟩), ?_⟩
    intro e h
    exact (Except.error.inj h).symm
  | succ limit ih =>
    intro depth indent x
    have herr : ∀ e, printDag g (limit + 1) depth indent x = .error e → e = .recursionError := by
      intro e h
      rw [printDag] at h
      by_cases hd : (if depth > 0 then depth - 1 else depth) ≠ 0
      · rw [if_pos hd] at h
        split at h
        · rename_i e' he
          obtain rfl := Except.error.inj h
          by_contra hne
          have hz : ∃ z ∈ g x, ∀ y, printDag g limit (if depth > 0 then depth - 1 else depth) (indent + 1) z ≠ .ok y := by
            by_contra hno
            push Not at hno
            obtain ⟨ys, hys⟩ := mapM_all_ok _ hno
            rw [hys] at he
            cases he
          have := mapM_some_error (g x) (fun z e' => ih.2 e') hz
          rw [this] at he
          exact hne (Except.error.inj he).symm
        · cases h
      · rw [if_neg hd] at h
        cases h
    refine ⟨?_, herr⟩
    by_cases hd : (if depth > 0 then depth - 1 else depth) ≠ 0
    · have hS : Shows depth (limit + 1) ↔ Shows (if depth > 0 then depth - 1 else depth) limit := by
        unfold Shows
        split at hd <;> rename_i hp
        · rw [if_pos hp]; omega
        · rw [if_neg hp]; omega
      rw [hS]
      constructor
      · rintro ⟨ls, h⟩ ⟨hs, hp⟩
        rw [printDag, if_pos hd] at h
        obtain ⟨z, hz⟩ := List.exists_mem_of_ne_nil _ hp
        obtain ⟨y, hy, hzy⟩ := List.mem_flatMap.1 hz
        have h1 : ∀ l, printDag g limit (if depth > 0 then depth - 1 else depth) (indent + 1) y ≠ .ok l := fun l hl =>
          (ih.1.1 ⟨l, hl⟩) ⟨hs, List.ne_nil_of_mem hzy⟩
        have h2 := mapM_some_error (f := fun y => printDag g limit (if depth > 0 then depth - 1 else depth) (indent + 1) y) (g x)
          (fun z e' => ih.2 e') ⟨y, hy, h1⟩
        rw [h2] at h
        cases h
      · intro hn
        rw [printDag, if_pos hd]
        obtain ⟨ys, hys⟩ := mapM_all_ok (f := fun y => printDag g limit (if depth > 0 then depth - 1 else depth)
          (indent + 1) y) (g x) (by
            intro y hy
            refine ih.1.2 fun ⟨hs, hp⟩ => hn ⟨hs, ?_⟩
            obtain ⟨z, hz⟩ := List.exists_mem_of_ne_nil _ hp
            exact List.ne_nil_of_mem (List.mem_flatMap.2 ⟨y, hy, hz⟩))
        rw [hys]
        exact ⟨_, rfl⟩
    · refine iff_of_true ?_ ?_
      · rw [printDag, if_neg hd]
        exact ⟨_, rfl⟩
      · rintro ⟨hs, _⟩
        apply hd
        unfold Shows at hs
        split <;> omega

theorem pathEnds_chain (k : Nat) : ∀ {x y : Nat}, y ∈ pathEnds g k x →
    ∃ l : List Nat, List.IsChain (Spec.Edge g) (x :: l) ∧ l.length = k := by
  induction k with
  | zero => intro x y _; exact ⟨[], by simp, rfl⟩
  | succ k ih =>
    intro x y h
    obtain ⟨z, hz, hy⟩ := List.mem_flatMap.1 h
    obtain ⟨l, hl, hk⟩ := ih hy
    exact ⟨z :: l, List.isChain_cons_cons.2 ⟨hz, hl⟩, by rw [List.length_cons, hk]⟩

/-- **C92** (partial): below the recursion limit everything the variable is computed from is shown. Missing: longer chains,
see `c92_recursion`. -/
theorem c92_complete_partial {limit : Nat} {x : Ref} (hc : Spec.ChainsLt g x limit) :
    ∃ ls, printDag g limit (-1) 0 x = .ok ls ∧
      ∀ y, Relation.ReflTransGen (Spec.Edge g) x y → ∃ k, DagLine.node k y ∈ ls := by
  obtain ⟨ls, h⟩ : ∃ ls, printDag g limit (-1) 0 x = .ok ls := by
    refine c92_recursion.1.2 fun ⟨_, hp⟩ => ?_
    obtain ⟨z, hz⟩ := List.exists_mem_of_ne_nil _ hp
    obtain ⟨l, hl, hk⟩ := pathEnds_chain limit hz
    exact absurd (hc l hl) (by omega)
  refine ⟨ls, h, fun y hy => ?_⟩
  obtain ⟨k, hk⟩ : ∃ k, y ∈ pathEnds g k x := by
    clear h hc
    induction hy using Relation.ReflTransGen.head_induction_on with
    | refl => exact ⟨0, List.mem_singleton.2 rfl⟩
    | head hz _ ih =>
      obtain ⟨k, hk⟩ := ih
      exact ⟨k + 1, List.mem_flatMap.2 ⟨_, hz, hk⟩⟩
  refine ⟨k, ?_⟩
  have h1 := (c92_levels h k).1
  have hS : Shows (-1) k := Or.inl (by decide)
  rw [if_pos hS, Nat.zero_add] at h1
  rw [← h1] at hk
  obtain ⟨l, hl, he⟩ := List.mem_filterMap.1 hk
  cases l with
  | leaf z => cases he
  | node i z =>
    simp only [Option.ite_none_right_eq_some, Option.some.injEq] at he
    obtain ⟨rfl, rfl⟩ := he
    exact hl

/-- The code violates **C92** for graphs with a cycle: without a depth it raises, whatever the recursion limit is. -/
theorem c92_cycle_violated (limit : Nat) {x : Ref} (h : x ∈ g x) (indent : Nat) :
    printDag g limit (-1) indent x = .error .recursionError := by
  have hp : ∀ k, x ∈ pathEnds g k x := by
    intro k
    induction k with
    | zero => exact List.mem_singleton.2 rfl
    | succ k ih => exact List.mem_flatMap.2 ⟨x, h, ih⟩
  obtain ⟨h1, h2⟩ := c92_recursion (g := g) (limit := limit) (depth := -1) (indent := indent) (x := x)
  cases hr : printDag g limit (-1) indent x with
  | error e => rw [h2 e hr]
  | ok ls =>
    exact absurd ⟨Or.inl (by decide), List.ne_nil_of_mem (hp limit)⟩ (h1.1 ⟨ls, hr⟩)

/-! ## Shapes -/

/-- The shape as text: the dimensions, each with a comma, in parentheses. -/
def shapeText (shape : List Nat) : List Char := ['('] ++ (shape.flatMap fun d => Nat.toDigits 10 d ++ [',']) ++ [')']

theorem foldl_text (f : Nat → List Char) (shape : List Nat) : ∀ s, shape.foldl (fun s d => s ++ f d) s =
    s ++ shape.flatMap f := by
  induction shape with
  | nil => intro s; simp
  | cons d shape ih => intro s; rw [List.foldl_cons, ih]; simp

/-- **C92**, shapes of inputs, independent variables, outputs. -/
theorem c92_shape (shape : List Nat) : reprShape shape = shapeText shape := by
  unfold reprShape shapeText
  rw [foldl_text (fun d => strDim d ++ [','])]
  rfl

theorem count_digits (n : Nat) : (Nat.toDigits 10 n).count ')' = 0 := by
  rw [List.count_eq_zero]
  intro h
  have := Nat.isDigit_of_mem_toDigits (by decide) (by decide) h
  revert this
  decide

/-- The code violates **C92**: the shape shown for sums, differences, products, quotients and powers is right if and only if they
are vectors. -/
theorem c92_shape_arith (shape : List Nat) : reprShapeArith shape = shapeText shape ↔ shape.length = 1 := by
  have e : reprShapeArith shape = ['('] ++ shape.flatMap fun d => Nat.toDigits 10 d ++ [','] ++ [')'] := by
    unfold reprShapeArith
    simp only [List.append_assoc]
    rw [foldl_text (fun d => strDim d ++ ([','] ++ [')']))]
    rfl
  constructor
  · intro h
    have h1 : (reprShapeArith shape).count ')' = shape.length := by
      rw [e]
      clear e h
      induction shape with
      | nil => decide
      | cons d shape ih =>
        simp only [List.singleton_append, List.flatMap_cons, List.count_cons, List.count_append, count_digits,
          List.length_cons, List.count_nil] at ih ⊢
        simp at ih ⊢
        omega
    have h2 : (shapeText shape).count ')' = 1 := by
      unfold shapeText
      clear e h h1
      induction shape with
      | nil => decide
      | cons d shape ih =>
        simp only [List.singleton_append, List.flatMap_cons, List.count_cons, List.count_append, count_digits,
          List.count_nil] at ih ⊢
        simp at ih ⊢
        omega
    rw [← h1, h, h2]
  · intro h
    obtain ⟨d, rfl⟩ := List.length_eq_one_iff.1 h
    rw [e]
    simp [shapeText]

/-! ## The number of lines -/

/-- Pairs of expressions, each of the pair computed from both of the pair before it. -/
def ladderDag : Graph := fun x => if x < 2 then [] else [2 * (x / 2) - 2, 2 * (x / 2) - 1]

/-- **C92**, the amount of text: for `2 (k + 1)` expressions, each with at most two dependencies, `print_dag()` prints
`3 · 2 ^ k - 1` lines. -/
theorem c92_exponential (k limit indent x : Nat) (hk : k < limit) (hx : x / 2 = k) :
    ∃ ls, printDag ladderDag limit (-1) indent x = .ok ls ∧ ls.length + 1 = 3 * 2 ^ k := by
  induction k generalizing limit indent x with
  | zero =>
    obtain ⟨l, rfl⟩ : ∃ l, limit = l + 1 := ⟨limit - 1, by omega⟩
    have hg : ladderDag x = [] := by
      unfold ladderDag
      rw [if_pos (by omega)]
    refine ⟨[.node indent x, .leaf x], ?_, rfl⟩
    simp [printDag, hg, pure, Except.pure]
  | succ k ih =>
    obtain ⟨l, rfl⟩ : ∃ l, limit = l + 1 := ⟨limit - 1, by omega⟩
    have hg : ladderDag x = [2 * k, 2 * k + 1] := by
      unfold ladderDag
      rw [if_neg (by omega), hx]
      simp
      omega
    obtain ⟨a, ha, hla⟩ := ih l (indent + 1) (2 * k) (by omega) (by omega)
    obtain ⟨b, hb, hlb⟩ := ih l (indent + 1) (2 * k + 1) (by omega) (by omega)
    refine ⟨.node indent x :: (a ++ b), ?_, ?_⟩
    · simp [printDag, hg, ha, hb, pure, Except.pure, bind, Except.bind]
    · simp only [List.length_cons, List.length_append, Nat.pow_succ]
      omega

/-! ## A sum of two things that share an input -/

/-- `y = (2 * x) + (3 * x)`: object 3 is the sum, 1 and 2 the products, 0 the input. -/
def demoDag : Graph := fun u => if u = 3 then [1, 2] else if u = 1 ∨ u = 2 then [0] else []

example : printDag demoDag 10 (-1) 0 3 = .ok [.node 0 3, .node 1 1, .node 2 0, .leaf 0, .node 1 2, .node 2 0, .leaf 0] := by
  decide

example : ∃ ls, printDag ladderDag 1000 (-1) 0 40 = .ok ls ∧ ls.length + 1 = 3 * 2 ^ 20 :=
  c92_exponential 20 1000 0 40 (by omega) (by omega)

example : printDag demoDag 10 2 0 3 = .ok [.node 0 3, .node 1 1, .node 1 2] := by decide

example : reprShapeArith [2, 3] = ['(', '2', ',', ')', '3', ',', ')'] ∧ reprShape [2, 3] = ['(', '2', ',', '3', ',', ')'] := by
  decide +kernel

end OM
