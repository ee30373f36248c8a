import Verif.Model.Compile
import Verif.Props.Program
import Verif.Props.Setitem

/-! # Shapes and components of a program -/

namespace OM
open Spec

/-- A component depends on the shapes of the operands only. -/
theorem build_congr {name : Ref → String} {shape shape' : Ref → List Nat} (c : Term)
    (h : ∀ u, u ∈ c.refs ∨ u = 0 → shape u = shape' u) : c.build name shape = c.build name shape' := by
  have hr : ∀ u ∈ c.refs, shape u = shape' u := fun u hu => h u (Or.inl hu)
  have arg : ∀ a : Arg, (∀ u ∈ a.refs, shape u = shape' u) → a.operand name shape = a.operand name shape' := by
    rintro (u | c) ha
    · simp only [Arg.operand, ha u (by simp [Arg.refs])]
    · rfl
  have lst : ∀ as : List Ref, (∀ u ∈ as, shape u = shape' u) →
      (as.map fun u => (name u, shape u)) = as.map fun u => (name u, shape' u) := by
    intro as ha
    exact List.map_congr_left fun u hu => by rw [ha u hu]
  have red : ∀ (as : List Ref) (axes : Option (List Int)), (∀ u ∈ as, shape u = shape' u) →
      setupRed name shape as axes = setupRed name shape' as axes := by
    intro as axes ha
    unfold setupRed
    rw [lst as ha]
    have : (∃ a ∈ as, ∃ b ∈ as, shape a ≠ shape b) ↔ ∃ a ∈ as, ∃ b ∈ as, shape' a ≠ shape' b := by
      constructor
      · rintro ⟨a, h1, b, h2, h3⟩
        exact ⟨a, h1, b, h2, by rwa [← ha a h1, ← ha b h2]⟩
      · rintro ⟨a, h1, b, h2, h3⟩
        exact ⟨a, h1, b, h2, by rwa [ha a h1, ha b h2]⟩
    simp only [this]
  cases c with
  | add a b | sub a b | mul a b | div a b =>
    simp only [Term.build]
    rw [arg a fun u hu => hr u (by simp [Term.refs, hu]), arg b fun u hu => hr u (by simp [Term.refs, hu])]
  | pow a _ | neg a | unary _ a | rotmat a _ | transpose a | reorder a _ _ | reshape a _ | expand a _ _ | pnorm a _ _ =>
    simp only [Term.build, hr a (by simp [Term.refs])]
  | matmat a b | matvec a b | outer a b | dot a b _ | inner a b _ | cross a b _ =>
    simp only [Term.build, hr a (by simp [Term.refs]), hr b (by simp [Term.refs])]
  | sum as axes | average as axes => simp only [Term.build, red as axes hr]
  | extremum lower as axis rho =>
    have h0 : shape (as.headD 0) = shape' (as.headD 0) := by
      cases as with
      | nil => exact h 0 (Or.inr rfl)
      | cons a l => exact hr a (by simp [Term.refs])
    simp only [Term.build, lst as hr, h0]
  | einsum as labels out sparse => simp only [Term.build, lst as hr]

section
variable {genv : GEnv} {name : Ref → String}

theorem ops_append (a b : List Stmt) : ops (a ++ b) = ops a ++ ops b := List.map_append

theorem layout_append (a b : List Stmt) : ∀ (w : World) (l : Layout),
    Layout.run genv name w l (a ++ b) =
      match Layout.run genv name w l a with
      | .error e => .error e
      | .ok l' => Layout.run genv name (run genv w (ops a)) l' b := by
  induction a with
  | nil => intro w l; rfl
  | cons st a ih =>
    intro w l
    rw [List.cons_append, Layout.run, Layout.run]
    cases l.step genv name w st with
    | error e => rfl
    | ok l' => exact ih _ l'

/-- The layouts agree about an object. -/
structure Layout.Same (l l' : Layout) (u : Ref) : Prop where
  shape : l.shape u = l'.shape u
  valShape : l.valShape u = l'.valShape u
  built : l.built u = l'.built u
  src : l.src u = l'.src u

theorem Layout.Same.trans {l l' l'' : Layout} {u : Ref} (h : l.Same l' u) (h' : l'.Same l'' u) : l.Same l'' u :=
  ⟨h.1.trans h'.1, h.2.trans h'.2, h.3.trans h'.3, h.4.trans h'.4⟩

/-- One call leaves the shapes and components of earlier objects. -/
theorem layout_step_old {w : World} {l l' : Layout} {st : Stmt} (h : l.step genv name w st = .ok l') {u : Ref}
    (hu : u < w.next) : l'.Same l u := by
  have hne : u ≠ w.next := Nat.ne_of_lt hu
  cases st with
  | declareInput n s | createIndep n s | createOutput n s =>
    simp only [Layout.step] at h
    cases h
    exact ⟨Function.update_of_ne hne .., Function.update_of_ne hne .., rfl, rfl⟩
  | expr c =>
    simp only [Layout.step] at h
    split at h
    · cases h
    · cases h
      exact ⟨Function.update_of_ne hne .., Function.update_of_ne hne .., Function.update_of_ne hne .., rfl⟩
  | registerOutput _ _ | addSubsystem _ =>
    simp only [Layout.step] at h
    cases h
    exact ⟨rfl, rfl, rfl, rfl⟩
  | define out e =>
    simp only [Layout.step] at h
    split at h <;> cases h
    exact ⟨rfl, rfl, rfl, rfl⟩
  | getItem x key =>
    have hi : u ≠ (OM.step genv w (.getItem x)).1.next - 1 := by
      have := (getItem_next (genv := genv) w x).1
      split at this <;> omega
    simp only [Layout.step] at h
    split at h
    · cases h
    · cases h
      exact ⟨Function.update_of_ne hi .., Function.update_of_ne hi .., rfl, Function.update_of_ne hi ..⟩
  | setItem out key e =>
    simp only [Layout.step] at h
    split at h
    · cases h
    · split at h <;> cases h
      exact ⟨rfl, rfl, rfl, rfl⟩

theorem layout_run_old {prog : List Stmt} : ∀ {w : World} {l l' : Layout}, WorldOk w → ValidFrom genv w (ops prog) →
    Layout.run genv name w l prog = .ok l' → ∀ {u : Ref}, u < w.next → l'.Same l u := by
  induction prog with
  | nil => intro w l l' _ _ h u _; cases h; exact ⟨rfl, rfl, rfl, rfl⟩
  | cons st prog ih =>
    intro w l l' ok hv h u hu
    rw [Layout.run] at h
    cases hs : l.step genv name w st with
    | error e => rw [hs] at h; cases h
    | ok l1 =>
      rw [hs] at h
      have ok1 := step_ok (env := genv) ok hv.1
      have hn : w.next ≤ (OM.step genv w st.op).1.next := run_next [st.op] ok ⟨hv.1, trivial⟩
      exact (ih ok1 hv.2 h (lt_of_lt_of_le hu hn)).trans (layout_step_old hs hu)

/-- The layout when a call is made, and after it. -/
theorem layout_split {a b : List Stmt} {st : Stmt} {l : Layout}
    (h : Layout.run genv name (World.init genv) Layout.init (a ++ st :: b) = .ok l) :
    ∃ l0 l1, Layout.run genv name (World.init genv) Layout.init a = .ok l0 ∧
      l0.step genv name (final genv (ops a)) st = .ok l1 ∧
      Layout.run genv name (final genv (ops (a ++ [st]))) l1 b = .ok l := by
  rw [layout_append] at h
  cases h0 : Layout.run genv name (World.init genv) Layout.init a with
  | error e => rw [h0] at h; cases h
  | ok l0 =>
    rw [h0] at h
    simp only [Layout.run] at h
    cases h1 : l0.step genv name (final genv (ops a)) st with
    | error e =>
      have h1' : l0.step genv name (run genv (World.init genv) (ops a)) st = .error e := h1
      rw [h1'] at h; cases h
    | ok l1 =>
      have h1' : l0.step genv name (run genv (World.init genv) (ops a)) st = .ok l1 := h1
      rw [h1'] at h
      refine ⟨l0, l1, rfl, h1, ?_⟩
      rw [ops_append]
      show Layout.run genv name (final genv (ops a ++ [st.op])) l1 b = _
      rw [final_snoc]
      exact h

variable {prog : List Stmt} {l : Layout}

/-- The layout when a call is made, and after it, agrees with the final one about the objects of that time. -/
theorem layout_at {a b : List Stmt} {st : Stmt} (hv : ValidFrom genv (World.init genv) (ops (a ++ st :: b)))
    (h : Layout.run genv name (World.init genv) Layout.init (a ++ st :: b) = .ok l) :
    st.op.Valid (final genv (ops a)) ∧ WorldOk (final genv (ops a)) ∧
    (final genv (ops a)).next ≤ (final genv (ops a ++ [st.op])).next ∧
    ∃ l0 l1, Layout.run genv name (World.init genv) Layout.init a = .ok l0 ∧
      l0.step genv name (final genv (ops a)) st = .ok l1 ∧
      (∀ {u}, u < (final genv (ops a)).next → l.Same l0 u) ∧
      ∀ {u}, u < (final genv (ops a ++ [st.op])).next → l.Same l1 u := by
  obtain ⟨l0, l1, h0, h1, h2⟩ := layout_split h
  rw [ops_append] at hv
  have hva := (validFrom_append genv (ops a) _ _).1 hv
  have oka : WorldOk (final genv (ops a)) := run_ok (ops a) (worldOk_init genv) hva.1
  have ok1 : WorldOk (final genv (ops a ++ [st.op])) := by
    rw [final_snoc]; exact step_ok (env := genv) oka hva.2.1
  have hb : ValidFrom genv (final genv (ops a ++ [st.op])) (ops b) := by
    rw [final_snoc]; exact hva.2.2
  have hle : (final genv (ops a)).next ≤ (final genv (ops a ++ [st.op])).next := by
    rw [final_snoc]
    exact run_next [st.op] oka ⟨hva.2.1, trivial⟩
  rw [ops_append] at h2
  have old := fun {u : Ref} (hu : u < (final genv (ops a ++ [st.op])).next) => layout_run_old ok1 hb h2 (u := u) hu
  exact ⟨hva.2.1, oka, hle, l0, l1, h0, h1,
    fun hu => (old (lt_of_lt_of_le hu hle)).trans (layout_step_old h1 hu), old⟩

/-- Shapes given when a variable is created. -/
theorem layout_created {a b : List Stmt} {st : Stmt} {n : String} {s : List Nat}
    (hv : ValidFrom genv (World.init genv) (ops (a ++ st :: b)))
    (h : Layout.run genv name (World.init genv) Layout.init (a ++ st :: b) = .ok l)
    (hst : st = .declareInput n s ∨ st = .createIndep n s ∨ st = .createOutput n s) :
    l.shape (final genv (ops a)).next = s ∧ l.valShape (final genv (ops a)).next = s := by
  obtain ⟨-, -, -, l0, l1, -, h1, -, old⟩ := layout_at hv h
  rw [ops_append] at hv
  have hret : st.op.Returns genv (ops a) (final genv (ops a)).next := by
    rcases hst with rfl | rfl | rfl <;> rfl
  have hlt := (made_kind hv hret).1.2
  rw [(old hlt).shape, (old hlt).valShape]
  rcases hst with rfl | rfl | rfl <;> simp only [Layout.step] at h1 <;> cases h1 <;>
    exact ⟨Function.update_self .., Function.update_self ..⟩

/-- The component and the shape of an expression. -/
theorem layout_expr {a b : List Stmt} {c : Term} (hv : ValidFrom genv (World.init genv) (ops (a ++ .expr c :: b)))
    (h : Layout.run genv name (World.init genv) Layout.init (a ++ .expr c :: b) = .ok l) :
    ∃ B, c.build name l.shape = .ok B ∧ l.built (final genv (ops a)).next = some B ∧
      l.shape (final genv (ops a)).next = B.shape ∧ l.valShape (final genv (ops a)).next = [1] := by
  obtain ⟨hval, oka, -, l0, l1, -, h1, old0, old⟩ := layout_at hv h
  rw [ops_append] at hv
  have hlt := (made_kind (op := Stmt.op (.expr c)) hv (u := (final genv (ops a)).next) rfl).1.2
  simp only [Layout.step] at h1
  split at h1
  · cases h1
  rename_i B hB
  cases h1
  refine ⟨B, ?_, ?_, ?_, ?_⟩
  · rw [← hB]
    refine build_congr c fun u hu => (old0 ?_).shape
    rcases hu with hu | rfl
    · exact (hval u hu).2
    · exact oka.pos
  · rw [(old hlt).built]; exact Function.update_self ..
  · rw [(old hlt).shape]; exact Function.update_self ..
  · rw [(old hlt).valShape]; exact Function.update_self ..

/-- An output has the shape of the expression that defines it. -/
theorem layout_define {a b : List Stmt} {out e : Ref}
    (hv : ValidFrom genv (World.init genv) (ops (a ++ .define out e :: b)))
    (h : Layout.run genv name (World.init genv) Layout.init (a ++ .define out e :: b) = .ok l)
    (hs : (step genv (final genv (ops a)) (.define out e)).2 = none) : l.shape out = l.shape e := by
  obtain ⟨⟨⟨_, h3⟩, _, h4⟩, -, -, l0, l1, -, h1, old0, -⟩ := layout_at hv h
  simp only [Layout.step] at h1
  split at h1
  · cases h1
  rename_i hn
  rw [(old0 h3).shape, (old0 h4).shape]
  by_contra hne
  exact hn ⟨hs, hne⟩

/-- The shape of `x[key]`, and the elements it reads. -/
theorem layout_item {a b : List Stmt} {x u : Ref} {key : Key}
    (hv : ValidFrom genv (World.init genv) (ops (a ++ .getItem x key :: b)))
    (h : Layout.run genv name (World.init genv) Layout.init (a ++ .getItem x key :: b) = .ok l)
    (hu : u + 1 = (final genv (ops a ++ [.getItem x])).next) :
    ∃ history ex, (OM.getItem (getItems (IVar.new (l.shape x) (l.valShape x)) history) key).2 = .ok ex ∧
      l.shape u = ex.shape ∧ l.src u = ex.src ∧ l.valShape u = ex.shape := by
  obtain ⟨⟨_, h3⟩, -, -, l0, l1, -, h1, old0, old⟩ := layout_at hv h
  have hu' : u < (final genv (ops a ++ [Stmt.op (.getItem x key)])).next := by
    show u < (final genv (ops a ++ [.getItem x])).next
    omega
  have hi : (OM.step genv (final genv (ops a)) (.getItem x)).1.next - 1 = u := by
    rw [final_snoc] at hu; omega
  simp only [Layout.step] at h1
  split at h1
  · cases h1
  rename_i ex hex
  cases h1
  refine ⟨l0.keys x, ex, ?_, ?_, ?_, ?_⟩
  · rw [(old0 h3).shape, (old0 h3).valShape]; exact hex
  · rw [(old hu').shape]; show Function.update _ _ _ u = _; rw [hi, Function.update_self]
  · rw [(old hu').src]; show Function.update _ _ _ u = _; rw [hi, Function.update_self]
  · rw [(old hu').valShape]; show Function.update _ _ _ u = _; rw [hi, Function.update_self]

/-- Components belong to expressions. -/
theorem layout_built (h : Layout.run genv name (World.init genv) Layout.init prog = .ok l) {u : Ref} {B : Built}
    (hB : l.built u = some B) : ∃ a c b, prog = a ++ .expr c :: b ∧ u = (final genv (ops a)).next := by
  induction prog using List.reverseRecOn generalizing l with
  | nil => cases h; cases hB
  | append_singleton prog st ih =>
    obtain ⟨l0, l1, h0, h1, h2⟩ := layout_split (b := []) h
    cases h2
    have old : l0.built u = some B → ∃ a c b, prog ++ [st] = a ++ .expr c :: b ∧ u = (final genv (ops a)).next := by
      intro hB
      obtain ⟨a, c, b, rfl, hu⟩ := ih h0 hB
      exact ⟨a, c, b ++ [st], by simp, hu⟩
    cases st with
    | declareInput n s | createIndep n s | createOutput n s =>
      simp only [Layout.step] at h1
      cases h1
      exact old hB
    | registerOutput _ _ | addSubsystem _ =>
      simp only [Layout.step] at h1
      cases h1
      exact old hB
    | define out e =>
      simp only [Layout.step] at h1
      split at h1 <;> cases h1
      exact old hB
    | getItem x key =>
      simp only [Layout.step] at h1
      split at h1 <;> cases h1
      exact old hB
    | setItem out key e =>
      simp only [Layout.step] at h1
      split at h1
      · cases h1
      split at h1 <;> cases h1
      exact old hB
    | expr c =>
      simp only [Layout.step] at h1
      split at h1
      · cases h1
      cases h1
      by_cases hu : u = (final genv (ops prog)).next
      · exact ⟨prog, c, [], rfl, hu⟩
      · simp only [Function.update_of_ne hu] at hB
        exact old hB

/-- A call of the group comes from a call of the program. -/
theorem ops_split {a b : List Op} {op : Op} (h : ops prog = a ++ op :: b) :
    ∃ pa st pb, prog = pa ++ st :: pb ∧ ops pa = a ∧ st.op = op ∧ ops pb = b := by
  obtain ⟨pa, r, rfl, h1, h2⟩ := List.map_eq_append_iff.1 h
  obtain ⟨st, pb, rfl, h3, h4⟩ := List.map_eq_cons_iff.1 h2
  exact ⟨pa, st, pb, rfl, h1, h3, h4⟩

/-- Initial values have the shape of the variable, except those of expressions. -/
theorem layout_valShape (hv : ValidFrom genv (World.init genv) (ops prog))
    (h : Layout.run genv name (World.init genv) Layout.init prog = .ok l) {u : Ref} (hr : Returned genv (ops prog) u) :
    ((final genv (ops prog)).kind u ≠ .expr → l.valShape u = l.shape u) ∧
    ((final genv (ops prog)).kind u = .expr → l.valShape u = [1]) := by
  obtain ⟨oa, op, ob, e, ho⟩ := hr
  obtain ⟨a, st, b, rfl, rfl, rfl, rfl⟩ := ops_split e
  have hv' := hv
  rw [ops_append] at hv'
  obtain ⟨_, h3, h4⟩ := made_kind hv' ho
  have h3' : (final genv (ops (a ++ st :: b))).kind u = (final genv (ops a ++ [st.op])).kind u := by
    rw [ops_append]; exact h3
  rw [h3']
  cases st with
  | declareInput n s =>
    obtain rfl : u = _ := ho
    obtain ⟨i1, i2⟩ := layout_created hv h (Or.inl rfl)
    exact ⟨fun _ => i2.trans i1.symm, fun hk => by simp only [Stmt.op] at h4 hk; rw [hk] at h4; cases h4⟩
  | createIndep n s =>
    obtain rfl : u = _ := ho
    obtain ⟨i1, i2⟩ := layout_created hv h (Or.inr (Or.inl rfl))
    exact ⟨fun _ => i2.trans i1.symm, fun hk => by simp only [Stmt.op] at h4 hk; rw [hk] at h4; cases h4⟩
  | createOutput n s =>
    obtain rfl : u = _ := ho
    obtain ⟨i1, i2⟩ := layout_created hv h (Or.inr (Or.inr rfl))
    exact ⟨fun _ => i2.trans i1.symm, fun hk => by simp only [Stmt.op] at h4 hk; rw [hk] at h4; cases h4⟩
  | expr c =>
    obtain rfl : u = _ := ho
    obtain ⟨B, -, -, -, i1⟩ := layout_expr hv h
    exact ⟨fun hk => absurd h4 hk, fun _ => i1⟩
  | getItem x key =>
    obtain ⟨_, ex, -, i1, -, i2⟩ := layout_item hv h ho
    exact ⟨fun _ => i2.trans i1.symm, fun hk => by simp only [Stmt.op] at h4 hk; rw [hk] at h4; cases h4⟩
  | registerOutput _ _ => exact ho.elim
  | addSubsystem _ => exact ho.elim
  | define _ _ => exact ho.elim
  | setItem _ _ _ => exact ho.elim

/-- Keys used on a variable come from calls. -/
theorem layout_keys (h : Layout.run genv name (World.init genv) Layout.init prog = .ok l) {x : Ref} {key : Key}
    (hk : key ∈ l.keys x) : ∃ a b, prog = a ++ .getItem x key :: b := by
  induction prog using List.reverseRecOn generalizing l with
  | nil => cases h; cases hk
  | append_singleton prog st ih =>
    obtain ⟨l0, l1, h0, h1, h2⟩ := layout_split (b := []) h
    cases h2
    have old : key ∈ l0.keys x → ∃ a b, prog ++ [st] = a ++ .getItem x key :: b := by
      intro hk
      obtain ⟨a, b, rfl⟩ := ih h0 hk
      exact ⟨a, b ++ [st], by simp⟩
    cases st with
    | declareInput n s | createIndep n s | createOutput n s | registerOutput n x | addSubsystem n =>
      simp only [Layout.step] at h1
      cases h1
      exact old hk
    | expr c =>
      simp only [Layout.step] at h1
      split at h1 <;> cases h1
      exact old hk
    | define out e =>
      simp only [Layout.step] at h1
      split at h1 <;> cases h1
      exact old hk
    | setItem out key e =>
      simp only [Layout.step] at h1
      split at h1
      · cases h1
      split at h1 <;> cases h1
      exact old hk
    | getItem y key' =>
      simp only [Layout.step] at h1
      split at h1 <;> cases h1
      by_cases hx : x = y
      · subst hx
        simp only [Function.update_self, List.mem_append, List.mem_singleton] at hk
        rcases hk with hk | rfl
        · exact old hk
        · exact ⟨prog, [], rfl⟩
      · simp only [Function.update_of_ne hx] at hk
        exact old hk

/-- The last call of a program, or an earlier one. -/
theorem snoc_split {a b : List Stmt} {st st' : Stmt} (h : prog ++ [st] = a ++ st' :: b) :
    (a = prog ∧ st' = st ∧ b = []) ∨ ∃ b', prog = a ++ st' :: b' ∧ b = b' ++ [st] := by
  rcases List.eq_nil_or_concat b with rfl | ⟨b', st'', rfl⟩
  · obtain ⟨rfl, h5⟩ := List.append_inj' h rfl
    cases h5
    exact Or.inl ⟨rfl, rfl, rfl⟩
  · have e' : prog ++ [st] = (a ++ st' :: b') ++ [st''] := by
      have : prog ++ [st] = a ++ st' :: (b' ++ [st'']) := by simpa [List.concat_eq_append] using h
      rw [this]; simp
    obtain ⟨h5, h6⟩ := List.append_inj' e' rfl
    cases h6
    exact Or.inr ⟨b', h5, by simp⟩

/-- The assignments to parts of an output come from calls, and each was accepted. -/
theorem layout_tgt (hv : ValidFrom genv (World.init genv) (ops prog))
    (h : Layout.run genv name (World.init genv) Layout.init prog = .ok l) (out : Ref) :
    (∀ pre x post, l.tgt out = pre ++ x :: post → AcceptedAt (l.shape out) pre x ∧
      ∃ a key e b, prog = a ++ .setItem out key e :: b ∧ x = (key, (final genv (ops a)).name e, l.shape e) ∧
        ∀ y ∈ pre, ∃ a1 key' e' a2, a = a1 ++ .setItem out key' e' :: a2 ∧
          y = (key', (final genv (ops a1)).name e', l.shape e')) ∧
    ∀ a key e b, prog = a ++ .setItem out key e :: b → (final genv (ops a)).kind out = .explicitOut ∧
      ∃ pre post, l.tgt out = pre ++ (key, (final genv (ops a)).name e, l.shape e) :: post ∧
        ∀ a1 key' e' a2, a = a1 ++ .setItem out key' e' :: a2 → (key', (final genv (ops a1)).name e', l.shape e') ∈ pre := by
  induction prog using List.reverseRecOn generalizing l with
  | nil =>
    cases h
    exact ⟨fun pre x post e => by simp [Layout.init] at e, fun a key e b e1 => by simp at e1⟩
  | append_singleton prog st ih =>
    obtain ⟨hval, oka, -, l0, l1, h0, h1, old0, -⟩ := layout_at (b := []) hv h
    obtain ⟨l0', l1', h0', h1', h2⟩ := layout_split (b := []) h
    cases h2
    cases h0.symm.trans h0'
    have hv0 : ValidFrom genv (World.init genv) (ops prog) := by
      rw [ops_append] at hv
      exact ((validFrom_append genv (ops prog) _ _).1 hv).1
    obtain ⟨i1, i2⟩ := ih hv0 h0
    have ltw : ∀ {a b : List Stmt} {key : Key} {e : Ref}, prog = a ++ .setItem out key e :: b →
        out < (final genv (ops prog)).next ∧ e < (final genv (ops prog)).next := by
      rintro a b key e rfl
      rw [ops_append] at hv0
      have hva := (validFrom_append genv (ops a) _ _).1 hv0
      have oka' : WorldOk (final genv (ops a)) := run_ok (ops a) (worldOk_init genv) hva.1
      have hle : (final genv (ops a)).next ≤ (final genv (ops (a ++ .setItem out key e :: b))).next := by
        rw [ops_append]
        show _ ≤ (run genv _ _).next
        rw [run, List.foldl_append]
        exact run_next (Stmt.op (.setItem out key e) :: ops b) oka' hva.2
      obtain ⟨⟨_, g1⟩, _, g2⟩ := hva.2.1
      exact ⟨lt_of_lt_of_le g1 hle, lt_of_lt_of_le g2 hle⟩
    have eshape : ∀ {u}, u < (final genv (ops prog)).next → l0.shape u = l.shape u := fun hu => (old0 hu).shape.symm
    -- what was there before
    have o1 : ∀ pre x post, l0.tgt out = pre ++ x :: post → AcceptedAt (l.shape out) pre x ∧
        ∃ a key e b, prog ++ [st] = a ++ .setItem out key e :: b ∧
          x = (key, (final genv (ops a)).name e, l.shape e) ∧
          ∀ y ∈ pre, ∃ a1 key' e' a2, a = a1 ++ .setItem out key' e' :: a2 ∧
            y = (key', (final genv (ops a1)).name e', l.shape e') := by
      intro pre x post he
      obtain ⟨g1, a, key, e, b, g2, g3, g4⟩ := i1 pre x post he
      obtain ⟨g5, g6⟩ := ltw g2
      rw [eshape g5] at g1
      refine ⟨g1, a, key, e, b ++ [st], by rw [g2]; simp, by rw [g3, eshape g6], fun y hy => ?_⟩
      obtain ⟨a1, key', e', a2, g7, g8⟩ := g4 y hy
      have g9 := (ltw (a := a1) (key := key') (e := e') (b := a2 ++ .setItem out key e :: b) (by rw [g2, g7]; simp)).2
      exact ⟨a1, key', e', a2, g7, by rw [g8, eshape g9]⟩
    have o2 : ∀ a key e b, prog = a ++ .setItem out key e :: b → (final genv (ops a)).kind out = .explicitOut ∧
        ∃ pre post, l0.tgt out = pre ++ (key, (final genv (ops a)).name e, l.shape e) :: post ∧
          ∀ a1 key' e' a2, a = a1 ++ .setItem out key' e' :: a2 →
            (key', (final genv (ops a1)).name e', l.shape e') ∈ pre := by
      intro a key e b hp
      obtain ⟨g1, pre, post, g2, g3⟩ := i2 a key e b hp
      refine ⟨g1, pre, post, by rw [g2, eshape (ltw hp).2], fun a1 key' e' a2 hq => ?_⟩
      have := g3 a1 key' e' a2 hq
      rwa [eshape (ltw (a := a1) (key := key') (e := e') (b := a2 ++ .setItem out key e :: b)
        (by rw [hp, hq]; simp)).2] at this
    have keep : l.tgt out = l0.tgt out → (∀ key e, st ≠ .setItem out key e) →
        (∀ pre x post, l.tgt out = pre ++ x :: post → AcceptedAt (l.shape out) pre x ∧
          ∃ a key e b, prog ++ [st] = a ++ .setItem out key e :: b ∧
            x = (key, (final genv (ops a)).name e, l.shape e) ∧
            ∀ y ∈ pre, ∃ a1 key' e' a2, a = a1 ++ .setItem out key' e' :: a2 ∧
              y = (key', (final genv (ops a1)).name e', l.shape e')) ∧
        ∀ a key e b, prog ++ [st] = a ++ .setItem out key e :: b → (final genv (ops a)).kind out = .explicitOut ∧
          ∃ pre post, l.tgt out = pre ++ (key, (final genv (ops a)).name e, l.shape e) :: post ∧
            ∀ a1 key' e' a2, a = a1 ++ .setItem out key' e' :: a2 →
              (key', (final genv (ops a1)).name e', l.shape e') ∈ pre := by
      intro he hne
      refine ⟨fun pre x post g => o1 pre x post (he ▸ g), fun a key e b hp => ?_⟩
      rcases snoc_split hp with ⟨-, hs, -⟩ | ⟨b', hb, -⟩
      · exact absurd hs.symm (hne key e)
      · obtain ⟨g1, pre, post, g2, g3⟩ := o2 a key e b' hb
        exact ⟨g1, pre, post, by rw [he, g2], g3⟩
    have g1' := h1'
    cases st with
    | declareInput n s | createIndep n s | createOutput n s | registerOutput n x | addSubsystem n =>
      simp only [Layout.step] at g1'
      cases g1'
      exact keep rfl (fun _ _ => by simp)
    | expr c =>
      simp only [Layout.step] at g1'
      split at g1' <;> cases g1'
      exact keep rfl (fun _ _ => by simp)
    | define out e =>
      simp only [Layout.step] at g1'
      split at g1' <;> cases g1'
      exact keep rfl (fun _ _ => by simp)
    | getItem x key =>
      simp only [Layout.step] at g1'
      split at g1' <;> cases g1'
      exact keep rfl (fun _ _ => by simp)
    | setItem out' key e =>
      simp only [Layout.step] at g1'
      split at g1'
      · cases g1'
      rename_i hk
      push Not at hk
      split at g1'
      · cases g1'
      rename_i hacc
      by_cases ho : out = out'
      · subst ho
        obtain ⟨⟨_, g5⟩, _, g6⟩ := hval
        have htgt : l.tgt out = l0.tgt out ++ [(key, (final genv (ops prog)).name e, l.shape e)] := by
          cases g1'
          exact Function.update_self ..
        have hsh := eshape g5
        have hse := eshape g6
        have hacc' : AcceptedAt (l.shape out) (l0.tgt out) (key, (final genv (ops prog)).name e, l.shape e) := by
          unfold AcceptedAt
          rw [← hsh, ← hse]
          exact hacc
        refine ⟨fun pre x post g => ?_, fun a key' e' b hp => ?_⟩
        · rw [htgt] at g
          rcases List.eq_nil_or_concat post with rfl | ⟨post', y, rfl⟩
          · obtain ⟨rfl, g7⟩ := List.append_inj' g rfl
            cases g7
            refine ⟨hacc', prog, key, e, [], rfl, rfl, fun y hy => ?_⟩
            obtain ⟨p1, p2, hp⟩ := List.append_of_mem hy
            obtain ⟨-, a1, key', e', b1, q1, q2, -⟩ := i1 _ _ _ hp
            exact ⟨a1, key', e', b1, q1, by rw [q2, eshape (ltw q1).2]⟩
          · have g' : l0.tgt out ++ [(key, (final genv (ops prog)).name e, l.shape e)] =
                (pre ++ x :: post') ++ [y] := by rw [g]; simp [List.concat_eq_append]
            obtain ⟨g7, -⟩ := List.append_inj' g' rfl
            exact o1 pre x post' g7
        · rcases snoc_split hp with ⟨rfl, hs, -⟩ | ⟨b', hb, -⟩
          · cases hs
            refine ⟨hk, l0.tgt out, [], htgt, fun a1 key' e' a2 hq => ?_⟩
            obtain ⟨-, pre, post, q1, -⟩ := o2 a1 key' e' a2 hq
            rw [q1]; simp
          · obtain ⟨g1, pre, post, g2, g3⟩ := o2 a key' e' b' hb
            exact ⟨g1, pre, post ++ [(key, (final genv (ops prog)).name e, l.shape e)], by rw [htgt, g2]; simp, g3⟩
      · refine keep ?_ fun key' e' he => ?_
        · cases g1'
          exact Function.update_of_ne ho ..
        · cases he; exact ho rfl

/-- A call is accepted with these shapes, and gives its object its shape. -/
def Stmt.Accepted (genv : GEnv) (name : Ref → String) (shape : Ref → List Nat) (a : List Stmt) : Stmt → Prop
  | .declareInput _ s | .createIndep _ s | .createOutput _ s => shape (final genv (ops a)).next = s
  | .expr c => ∃ B, c.build name shape = .ok B ∧ B.shape = shape (final genv (ops a)).next
  | .registerOutput _ _ | .addSubsystem _ => True
  | .define out e => (OM.step genv (final genv (ops a)) (.define out e)).2 = none → shape out = shape e
  | .getItem x key => ((final genv (ops a)).kind x ≠ .expr ∨ shape x = [1]) ∧
      List.Forall₂ ItemInRange (shape x) key.items ∧ ∃ sels, KeySelects (shape x) key.items sels ∧
        shape ((final genv (ops a ++ [.getItem x])).next - 1) = sels.map List.length
  | .setItem out key e => (final genv (ops a)).kind out = .explicitOut ∧
      List.Forall₂ ItemInRange (shape out) key.items ∧
      (∃ sels, KeySelects (shape out) key.items sels ∧ shape e = sels.map List.length) ∧
      ∀ a1 key' e' a2, a = a1 ++ .setItem out key' e' :: a2 →
        (final genv (ops a1)).name e' ≠ (final genv (ops a)).name e ∧
        ∀ p q, Touched (shape out) key' p → Positions (shape out) key q → ∀ i ∈ p, i ∉ q

/-- If every call is accepted with the shapes `shape`, then the program compiles, with these shapes. -/
theorem layout_ok {shape : Ref → List Nat} (hv : ValidFrom genv (World.init genv) (ops prog))
    (hu : UsesReturned genv (ops prog)) (h0 : shape 0 = [])
    (hst : ∀ a st b, prog = a ++ st :: b → st.Accepted genv name shape a) :
    ∃ l, Layout.run genv name (World.init genv) Layout.init prog = .ok l ∧ l.shape 0 = [] ∧
      ∀ u, Returned genv (ops prog) u → l.shape u = shape u := by
  induction prog using List.reverseRecOn with
  | nil =>
    refine ⟨_, rfl, rfl, ?_⟩
    rintro u ⟨a, op, b, e, -⟩
    simp at e
  | append_singleton prog st ih =>
    rw [ops_append] at hv hu
    have hva := (validFrom_append genv (ops prog) _ _).1 hv
    have oka : WorldOk (final genv (ops prog)) := run_ok (ops prog) (worldOk_init genv) hva.1
    obtain ⟨l, h1, h2, h3⟩ := ih hva.1 hu.left fun a st' b e => hst a st' (b ++ [st]) (by rw [e]; simp)
    have hacc := hst prog st [] rfl
    have hret : ∀ {x}, x ∈ st.op.uses → Returned genv (ops prog) x := fun {x} hx => hu (ops prog) st.op [] rfl x hx
    have hlt : ∀ {x}, Returned genv (ops prog) x → x < (final genv (ops prog)).next :=
      fun {x} hx => (returned_kind hva.1 hx).1.2
    -- what the call returns
    have hnew : ∀ u, Returned genv (ops (prog ++ [st])) u → Returned genv (ops prog) u ∨ st.op.Returns genv (ops prog) u := by
      rintro u ⟨a, op, b, e, h4⟩
      rw [ops_append] at e
      rcases List.eq_nil_or_concat b with rfl | ⟨b', op', rfl⟩
      · obtain ⟨rfl, h5⟩ := List.append_inj' e rfl
        cases h5
        exact Or.inr h4
      · have e' : ops prog ++ [st.op] = (a ++ op :: b') ++ [op'] := by
          have : ops prog ++ [st.op] = a ++ op :: (b' ++ [op']) := by simpa [List.concat_eq_append] using e
          rw [this]; simp
        obtain ⟨h5, -⟩ := List.append_inj' e' rfl
        exact Or.inl ⟨a, op, b', h5, h4⟩
    have hrun : ∀ {l'}, l.step genv name (final genv (ops prog)) st = .ok l' →
        Layout.run genv name (World.init genv) Layout.init (prog ++ [st]) = .ok l' := by
      intro l' hl
      have hl' : l.step genv name (run genv (World.init genv) (ops prog)) st = .ok l' := hl
      rw [layout_append, h1]
      simp only [Layout.run, hl']
    have upd : ∀ (i : Ref) (l' : Layout) (s : List Nat), (final genv (ops prog)).next ≤ i →
        l.step genv name (final genv (ops prog)) st = .ok l' →
        l'.shape = Function.update l.shape i s → shape i = s →
        (∀ u, st.op.Returns genv (ops prog) u → u = i) →
        ∃ l, Layout.run genv name (World.init genv) Layout.init (prog ++ [st]) = .ok l ∧ l.shape 0 = [] ∧
          ∀ u, Returned genv (ops (prog ++ [st])) u → l.shape u = shape u := by
      intro i l' s hi hl hs hsh hr
      refine ⟨l', hrun hl, by rw [hs, Function.update_of_ne (by have := oka.pos; omega), h2], fun u hu => ?_⟩
      rcases hnew u hu with hu | hu
      · rw [hs, Function.update_of_ne (by have := hlt hu; omega), h3 u hu]
      · obtain rfl := hr u hu
        rw [hs, Function.update_self, hsh]
    cases st with
    | declareInput n s => exact upd _ _ s le_rfl rfl rfl hacc fun u hu => hu
    | createIndep n s => exact upd _ _ s le_rfl rfl rfl hacc fun u hu => hu
    | createOutput n s => exact upd _ _ s le_rfl rfl rfl hacc fun u hu => hu
    | expr c =>
      obtain ⟨B, hB, hs⟩ := hacc
      have hB' : c.build name l.shape = .ok B := by
        rw [← hB]
        refine build_congr c fun u hu => ?_
        rcases hu with hu | rfl
        · exact h3 u (hret hu)
        · rw [h2, h0]
      exact upd _ { l with
          shape := Function.update l.shape (final genv (ops prog)).next B.shape
          valShape := Function.update l.valShape (final genv (ops prog)).next [1]
          built := Function.update l.built (final genv (ops prog)).next (some B) } B.shape le_rfl
        (by simp only [Layout.step, hB']) rfl hs.symm fun u hu => hu
    | registerOutput _ _ | addSubsystem _ =>
      refine ⟨l, hrun rfl, h2, fun u hu => ?_⟩
      rcases hnew u hu with hu | hu
      · exact h3 u hu
      · exact hu.elim
    | define out e =>
      refine ⟨l, hrun ?_, h2, fun u hu => ?_⟩
      · simp only [Layout.step]
        rw [if_neg]
        rintro ⟨h4, h5⟩
        apply h5
        rw [h3 out (hret (by simp [Stmt.op, Op.uses])), h3 e (hret (by simp [Stmt.op, Op.uses]))]
        exact hacc h4
      · rcases hnew u hu with hu | hu
        · exact h3 u hu
        · exact hu.elim
    | getItem x key =>
      obtain ⟨hx, hr, sels, hs, hsh⟩ := hacc
      have hrx := hret (x := x) (by simp [Stmt.op, Op.uses])
      have hval : l.valShape x = l.shape x := by
        obtain ⟨g1, g2⟩ := layout_valShape hva.1 h1 hrx
        by_cases hk : (final genv (ops prog)).kind x = .expr
        · rw [g2 hk, h3 x hrx]
          exact (hx.resolve_left (by simp [hk])).symm
        · exact g1 hk
      have hkeys : ∀ k ∈ l.keys x, List.Forall₂ ItemInRange (shape x) k.items := by
        intro k hk
        obtain ⟨a, b, e⟩ := layout_keys h1 hk
        exact (hst a (.getItem x k) (b ++ [.getItem x key]) (by rw [e]; simp)).2.1
      obtain ⟨ex, hex⟩ := c19_accepts (shape := l.shape x) (l.keys x) key
        (fun k hk => by
          have := hkeys k (List.mem_of_mem_head? hk)
          rw [← h3 x hrx] at this
          obtain ⟨_, _, _, _, _, s, hs⟩ := entry_complete this
          exact ⟨s, hs⟩) (by rw [h3 x hrx]; exact hr)
      obtain ⟨sels', s1, s2, -⟩ := c19_never_wrong _ _ hex
      rw [h3 x hrx] at s1
      obtain rfl := keySelects_unique s1 hs
      rw [final_snoc] at hsh
      refine upd ((OM.step genv (final genv (ops prog)) (.getItem x)).1.next - 1) { l with
          shape := Function.update l.shape ((OM.step genv (final genv (ops prog)) (.getItem x)).1.next - 1) ex.shape
          valShape := Function.update l.valShape ((OM.step genv (final genv (ops prog)) (.getItem x)).1.next - 1) ex.shape
          keys := Function.update l.keys x (l.keys x ++ [key])
          src := Function.update l.src ((OM.step genv (final genv (ops prog)) (.getItem x)).1.next - 1) ex.src }
        ex.shape ?_ (by simp only [Layout.step, hval, hex]) rfl (by rw [hsh, s2]) fun u hu => ?_
      · have := (getItem_next (genv := genv) (final genv (ops prog)) x).1
        split at this <;> omega
      · have hu : u + 1 = (final genv (ops prog ++ [.getItem x])).next := hu
        rw [final_snoc] at hu
        omega
    | setItem out key e =>
      obtain ⟨hk, hr, ⟨sels, hs, hsh⟩, hd⟩ := hacc
      have hro := h3 out (hret (by simp [Stmt.op, Op.uses]))
      have hre := h3 e (hret (by simp [Stmt.op, Op.uses]))
      obtain ⟨t1, -⟩ := layout_tgt hva.1 h1 out
      have from' : ∀ y ∈ l.tgt out, ∃ a1 key' e' a2, prog = a1 ++ .setItem out key' e' :: a2 ∧
          y = (key', (final genv (ops a1)).name e', l.shape e') := by
        intro y hy
        obtain ⟨p1, p2, hp⟩ := List.append_of_mem hy
        obtain ⟨-, a1, key', e', b1, q1, q2, -⟩ := t1 _ _ _ hp
        exact ⟨a1, key', e', b1, q1, q2⟩
      have hacc : AcceptedAt (l.shape out) (l.tgt out) (key, (final genv (ops prog)).name e, l.shape e) := by
        rw [hro]
        rw [hro] at t1
        refine c18_accepts (noTrace_of_accepted fun pre x post he => (t1 pre x post he).1) hr ?_ hs (by rw [hre]; exact hsh)
          ?_ ?_
        · intro c hc k hck
          obtain ⟨a1, key', e', a2, g1, rfl⟩ := from' c hc
          have := (hst a1 (.setItem out key' e') (a2 ++ [.setItem out key e]) (by rw [g1]; simp)).2.1
          rw [show key' = .one (.int k) from hck] at this
          generalize shape out = so at this
          cases this with
          | cons h _ => exact h.1
        · intro c hc
          obtain ⟨a1, key', e', a2, g1, rfl⟩ := from' c hc
          exact (hd a1 key' e' a2 g1).1
        · intro c hc p q hp hq
          obtain ⟨a1, key', e', a2, g1, rfl⟩ := from' c hc
          exact (hd a1 key' e' a2 g1).2 p q hp hq
      have hstep : ∃ l', l.step genv name (final genv (ops prog)) (.setItem out key e) = .ok l' ∧ l'.shape = l.shape := by
        unfold AcceptedAt at hacc
        simp only at hacc
        let tgt := Function.update l.tgt out (l.tgt out ++ [(key, (final genv (ops prog)).name e, l.shape e)])
        refine ⟨{ l with tgt := tgt }, ?_, rfl⟩
        simp only [Layout.step]
        rw [if_neg (by simpa using hk)]
        simp only [hacc]
        rfl
      obtain ⟨l', g1, g2⟩ := hstep
      refine ⟨l', hrun g1, by rw [g2, h2], fun u hu => ?_⟩
      rw [g2]
      rcases hnew u hu with hu | hu
      · exact h3 u hu
      · exact hu.elim

end

end OM
