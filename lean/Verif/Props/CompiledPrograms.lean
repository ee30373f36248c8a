import Verif.Props.Compiled

/-!
# Which programs compile (C69)

A program compiles exactly if its calls fit the shapes of its objects. Then two programs: one with a function of every
element, a product and a sum, and one that reads and assigns parts of arrays.
-/

namespace OM
open Spec

/-- The arguments are of the kinds for which `c69_compiles` and `c69_shapes` characterise acceptance. -/
def Stmt.Plain (genv : GEnv) (shape : Ref → List Nat) (a : List Stmt) : Stmt → Prop
  | .expr c => c.Plain shape
  | .getItem x key => ((final genv (ops a)).kind x ≠ .expr ∨ shape x = [1]) ∧ List.Forall₂ ItemInRange (shape x) key.items
  | .setItem out key _ => List.Forall₂ ItemInRange (shape out) key.items
  | _ => True

/-- A call fits the shapes of the objects, and gives its object its shape. -/
def Stmt.Fits (genv : GEnv) (name : Ref → String) (shape : Ref → List Nat) (a : List Stmt) : Stmt → Prop
  | .declareInput _ s | .createIndep _ s | .createOutput _ s => shape (final genv (ops a)).next = s
  | .expr c => c.Fits name shape ∧ shape (final genv (ops a)).next = c.outShape shape
  | .registerOutput _ _ | .addSubsystem _ => True
  | .define out e => (step genv (final genv (ops a)) (.define out e)).2 = none → shape out = shape e
  | .getItem x key => ∃ sels, KeySelects (shape x) key.items sels ∧
      ∀ u, u + 1 = (final genv (ops a ++ [.getItem x])).next → shape u = sels.map List.length
  | .setItem out key e => (final genv (ops a)).kind out = .explicitOut ∧
      (∃ sels, KeySelects (shape out) key.items sels ∧ shape e = sels.map List.length) ∧
      ∀ a1 key' e' a2, a = a1 ++ .setItem out key' e' :: a2 →
        (final genv (ops a1)).name e' ≠ (final genv (ops a)).name e ∧
        ∀ p q, Touched (shape out) key' p → Positions (shape out) key q → ∀ i ∈ p, i ∉ q

theorem plain_of_inRange {shape : List Nat} {key : Key} (hr : List.Forall₂ ItemInRange shape key.items) :
    Plain shape key := by
  cases key with
  | tuple es => trivial
  | one e =>
    obtain ⟨n, rfl⟩ : ∃ n, shape = [n] := List.length_eq_one_iff.1 hr.length_eq
    cases hr with
    | cons h _ =>
      cases e with
      | int k => exact ⟨h.1, n, rfl⟩
      | slice => exact ⟨n, rfl⟩

section
variable {genv : GEnv} {env : SetupEnv} {m : Meaning Unit} {prog : List Stmt} {l : Layout}

local notation "W" => final genv (ops prog)

/-- **C69**, acceptance: a program compiles if there are shapes which all calls fit, and then the objects have these
shapes. -/
theorem c69_compiles {shape : Ref → List Nat} (h : ProgramCore genv env m (ops prog)) (h0 : shape 0 = [])
    (hp : ∀ a st b, prog = a ++ st :: b → st.Plain genv shape a)
    (hst : ∀ a st b, prog = a ++ st :: b → st.Fits genv (W).name shape a) :
    ∃ l, compileProgram genv prog = .ok l ∧ ∀ u, Returned genv (ops prog) u → l.shape u = shape u := by
  obtain ⟨l, h1, _, h2⟩ := layout_ok (name := (W).name) h.group.valid h.uses h0 (by
    intro a st b e
    have hf := hst a st b e
    have hp := hp a st b e
    cases st with
    | expr c =>
      obtain ⟨B, hB⟩ := (c69_accepts hp).2 hf.1
      exact ⟨B, hB, by rw [c69_outShape hp hB, hf.2]⟩
    | declareInput | createIndep | createOutput | define => exact hf
    | registerOutput | addSubsystem => trivial
    | getItem x key =>
      obtain ⟨sels, s1, s2⟩ := hf
      refine ⟨hp.1, hp.2, sels, s1, s2 _ ?_⟩
      have h1 := (getItem_next (genv := genv) (final genv (ops a)) x).1
      rw [final_snoc]
      split at h1 <;> omega
    | setItem out key e => exact ⟨hf.1, hp, hf.2⟩)
  exact ⟨l, h1, h2⟩

/-- **C69**, refusal: if a program compiles, all calls fit the shapes of the objects. -/
theorem c69_shapes (h : ProgramCore genv env m (ops prog)) (hc : compileProgram genv prog = .ok l)
    (hp : ∀ a st b, prog = a ++ st :: b → st.Plain genv l.shape a) :
    ∀ a st b, prog = a ++ st :: b → st.Fits genv (W).name l.shape a := by
  have hv := h.group.valid
  have h3 : Layout.run genv (W).name (World.init genv) Layout.init prog = .ok l := hc
  generalize (W).name = name at h3
  rintro a st b rfl
  have hp := hp a st b rfl
  cases st with
  | declareInput n s => exact (layout_created hv h3 (Or.inl rfl)).1
  | createIndep n s => exact (layout_created hv h3 (Or.inr (Or.inl rfl))).1
  | createOutput n s => exact (layout_created hv h3 (Or.inr (Or.inr rfl))).1
  | expr c =>
    obtain ⟨B, hB, -, hs, -⟩ := layout_expr hv h3
    exact ⟨(c69_accepts hp).1 ⟨B, hB⟩, by rw [hs, c69_outShape hp hB]⟩
  | registerOutput | addSubsystem => trivial
  | define out e => exact fun hs => layout_define hv h3 hs
  | getItem x key =>
    have e1 : ops (a ++ .getItem x key :: b) = ops a ++ .getItem x :: ops b := by rw [ops_append]; rfl
    have hrx : Returned genv (ops (a ++ .getItem x key :: b)) x := by
      have := (h.uses (ops a) (.getItem x) (ops b) e1 x (by simp [Op.uses])).mono (b := .getItem x :: ops b)
      rwa [← e1] at this
    have hkx : (final genv (ops (a ++ .getItem x key :: b))).kind x = (final genv (ops a)).kind x := by
      have hv' := hv
      rw [e1] at hv' ⊢
      exact kind_at hv' ((validFrom_append genv (ops a) _ _).1 hv').2.1.2
    have hvs : l.valShape x = l.shape x := by
      obtain ⟨v1, v2⟩ := layout_valShape hv h3 hrx
      rw [hkx] at v1 v2
      by_cases hk : (final genv (ops a)).kind x = .expr
      · rw [v2 hk, hp.1.resolve_left (fun hne => hne hk)]
      · exact v1 hk
    have hnx : (final genv (ops a ++ [.getItem x])).next - 1 + 1 = (final genv (ops a ++ [.getItem x])).next := by
      have h1 := (getItem_next (genv := genv) (final genv (ops a)) x).1
      rw [final_snoc]
      split at h1 <;> omega
    obtain ⟨history, ex, g1, g2, -⟩ := layout_item hv h3 hnx
    rw [hvs] at g1
    obtain ⟨sels, s1, s2, -⟩ := c19_never_wrong history key g1
    refine ⟨sels, s1, fun u hu => ?_⟩
    obtain rfl : u = (final genv (ops a ++ [.getItem x])).next - 1 := by omega
    rw [g2, s2]
  | setItem out key e =>
    obtain ⟨t1, t2⟩ := layout_tgt hv h3 out
    obtain ⟨k1, pre, post, k2, k3⟩ := t2 a key e b rfl
    obtain ⟨acc, -⟩ := t1 _ _ _ k2
    have hpl : Plain (l.shape out) key := plain_of_inRange hp
    have hn : ∀ k, key = .one (.int k) → 0 ≤ k := by
      rintro k rfl
      exact hpl.1
    obtain ⟨idx, i1, i2, i3, -⟩ := accepted_entry acc
    obtain ⟨sels, s1, s2, s3⟩ := tgt_positions i1 i2 hpl
    refine ⟨k1, ⟨sels, s1, s2⟩, fun a1 key' e' a2 ha => ?_⟩
    have hy := k3 a1 key' e' a2 ha
    obtain ⟨pre1, mid, hpre⟩ := List.append_of_mem hy
    have accy : AcceptedAt (l.shape out) pre1 (key', (final genv (ops a1)).name e', l.shape e') :=
      (t1 pre1 _ (mid ++ _ :: post) (by rw [k2, hpre, List.append_assoc, List.cons_append])).1
    obtain ⟨idy, y1, -⟩ := accepted_entry accy
    refine ⟨fun hne => ?_, fun p q hp' hq => ?_⟩
    · have hno : NoTrace (l.shape out) pre := noTrace_of_accepted fun pre' x post' he =>
        (t1 pre' x (post' ++ _ :: post) (by rw [k2, he, List.append_assoc, List.cons_append])).1
      refine i3 ((final genv (ops a1)).name e', l.shape e', idy) (((assigns_tgt hno).2 _).2 ?_) hne
      exact ⟨pre1, _, mid, idy, hpre, accy, y1, rfl⟩
    · obtain rfl := positions_unique hq ⟨sels, s1, s3⟩
      rw [hpre] at acc
      exact (c17_one_source accy acc hp' (tgt_touched i1 hn)).2

end

/-! ## A program -/

theorem split_prog {prog a b : List Stmt} {st : Stmt} (h : prog = a ++ st :: b) :
    ∃ i, i < prog.length ∧ a = prog.take i ∧ prog[i]? = some st ∧ b = prog.drop (i + 1) := by
  refine ⟨a.length, ?_, ?_, ?_, ?_⟩ <;> subst h <;> simp

/-- `x` (1) of shape `(2,)`, `exp(x)` (2), `x * exp(x)` (3) which defines the output `f` (4; the leaf for feedback
is 5), and the sum of its entries (6), registered as `s`. -/
noncomputable def waveProg : List Stmt :=
  [.createIndep "x" [2], .expr (.unary .exp 1), .expr (.mul (.ref 1) (.ref 2)), .createOutput "f" [2],
   .define 4 3, .expr (.sum [3] none), .registerOutput "s" 6]

def waveOps : List Op :=
  [.createIndep "x", .combine [1], .combine [1, 2], .createOutput "f", .define 4 3, .combine [3], .registerOutput "s" 6]

theorem wave_ops : ops waveProg = waveOps := rfl

theorem wave_added {s : Ref} : ¬ AddedIn progGEnv waveOps s := by
  rintro ⟨a, nm, b, e, rfl⟩
  obtain ⟨i, hi, rfl, h1, _⟩ := split_cases e
  change i < 7 at hi
  interval_cases i <;> simp [waveOps] at h1

theorem wave_programOk {m : Meaning Unit} : ProgramOk progGEnv demoEnv m waveOps where
  group := groupOk_of_check (by decide) ⟨trivial, trivial, trivial, trivial, (show _ ≠ _ by decide), trivial, trivial,
    trivial⟩ (by decide) 8 pyOrder_ascending (by decide)
  uses := by
    intro a op b e u hu
    obtain ⟨i, hi, rfl, h1, _⟩ := split_cases e
    change i < 7 at hi
    have r1 : ∀ k, Returned progGEnv (waveOps.take (k + 1)) 1 := fun k =>
      ⟨[], .createIndep "x", _, rfl, by show _ = _; decide⟩
    have r2 : ∀ k, Returned progGEnv (waveOps.take (k + 2)) 2 := fun k =>
      ⟨waveOps.take 1, .combine [1], _, rfl, by show _ = _; decide⟩
    have r3 : ∀ k, Returned progGEnv (waveOps.take (k + 3)) 3 := fun k =>
      ⟨waveOps.take 2, .combine [1, 2], _, rfl, by show _ = _; decide⟩
    have r4 : ∀ k, Returned progGEnv (waveOps.take (k + 4)) 4 := fun k =>
      ⟨waveOps.take 3, .createOutput "f", _, rfl, by show _ = _; decide⟩
    have r6 : ∀ k, Returned progGEnv (waveOps.take (k + 6)) 6 := fun k =>
      ⟨waveOps.take 5, .combine [3], _, rfl, by show _ = _; decide⟩
    interval_cases i <;> simp [waveOps] at h1 <;> subst h1 <;> simp [Op.uses] at hu
    · subst hu; exact r1 0
    · rcases hu with rfl | rfl
      · exact r1 1
      · exact r2 0
    · rcases hu with rfl | rfl
      · exact r4 0
      · exact r3 1
    · subst hu; exact r3 2
    · subst hu; exact r6 0
  feedback := by
    intro a out e b h
    obtain ⟨i, hi, rfl, h1, _⟩ := split_cases h
    change i < 7 at hi
    interval_cases i <;> simp [waveOps] at h1
    obtain ⟨rfl, rfl⟩ := h1
    exact not_reach [3, 2, 1] (by decide) (by decide) (by decide)
  own := by
    rintro u v ⟨hu, hu'⟩ ⟨hv, hv'⟩
    change u < 7 at hu
    change v < 7 at hv
    revert hu' hv'
    interval_cases u <;> interval_cases v <;> decide
  subs := fun s n hs => absurd hs wave_added
  inputs := by
    intro a nm b h
    obtain ⟨i, hi, rfl, h1, _⟩ := split_cases h
    change i < 7 at hi
    interval_cases i <;> simp [waveOps] at h1
  subReads := by
    intro a nm b h
    obtain ⟨i, hi, rfl, h1, _⟩ := split_cases h
    change i < 7 at hi
    interval_cases i <;> simp [waveOps] at h1

theorem wave_returned {u : Ref} (h : Returned progGEnv waveOps u) : u = 1 ∨ u = 2 ∨ u = 3 ∨ u = 4 ∨ u = 6 := by
  obtain ⟨a, op, b, e, h⟩ := h
  obtain ⟨i, hi, rfl, h1, _⟩ := split_cases e
  change i < 7 at hi
  interval_cases i <;> simp [waveOps] at h1 <;> subst h1
  · exact Or.inl h
  · exact Or.inr (Or.inl h)
  · exact Or.inr (Or.inr (Or.inl h))
  · exact Or.inr (Or.inr (Or.inr (Or.inl h)))
  · exact h.elim
  · exact Or.inr (Or.inr (Or.inr (Or.inr h)))
  · exact h.elim

def waveShape (u : Ref) : List Nat := if u = 0 then [] else if u = 6 then [1] else [2]

def waveSize (n : String) : Nat := if n = "s" then 1 else 2

theorem wave_fits {a b : List Stmt} {st : Stmt} (e : waveProg = a ++ st :: b) :
    st.Fits progGEnv (final progGEnv waveOps).name waveShape a := by
  obtain ⟨i, hi, rfl, h1, _⟩ := split_prog e
  change i < 7 at hi
  interval_cases i <;> simp [waveProg] at h1 <;> subst h1
  · show waveShape _ = _; decide
  · exact ⟨trivial, by decide⟩
  · exact ⟨⟨by decide, by decide⟩, by decide⟩
  · show waveShape _ = _; decide
  · intro _; decide
  · exact ⟨⟨by simp, by simp, by simp, by simp⟩, by decide⟩
  · trivial

theorem wave_plain (shape : Ref → List Nat) {a b : List Stmt} {st : Stmt} (e : waveProg = a ++ st :: b) :
    st.Plain progGEnv shape a := by
  obtain ⟨i, hi, rfl, h1, _⟩ := split_prog e
  change i < 7 at hi
  interval_cases i <;> simp [waveProg] at h1 <;> subst h1 <;> trivial

theorem wave_noItem {a b : List Stmt} {st : Stmt} (e : waveProg = a ++ st :: b) :
    (∀ x key, st ≠ .getItem x key) ∧ ∀ out key e, st ≠ .setItem out key e := by
  obtain ⟨i, hi, rfl, h1, _⟩ := split_prog e
  change i < 7 at hi
  interval_cases i <;> simp [waveProg] at h1 <;> subst h1 <;> simp

theorem wave_first : RegisteredFirst waveOps := by
  intro a out e b he
  obtain ⟨i, hi, rfl, h1, _⟩ := split_cases he
  change i < 7 at hi
  interval_cases i <;> simp [waveOps] at h1

theorem wave_compiled {m : Meaning Unit} : ∃ l, Compiled progGEnv demoEnv m waveProg l [1, 2, 3, 4, 6] waveSize ∧
    ∀ u, Returned progGEnv waveOps u → l.shape u = waveShape u := by
  obtain ⟨l, h1, h2⟩ := c69_compiles (genv := progGEnv) (env := demoEnv) (m := m) (prog := waveProg) (shape := waveShape)
    wave_programOk.toProgramCore rfl (fun a st b e => wave_plain _ e) fun a st b e => wave_fits e
  refine ⟨l, ⟨.of wave_programOk.toProgramCore h1 (by rw [wave_ops]; decide) (fun u hu => ?_) wave_first
    (fun a x key b e => absurd rfl ((wave_noItem e).1 x key))
    (fun a out key e b he => absurd rfl ((wave_noItem he).2 out key e)) fun a c b e => ?_, wave_programOk⟩, h2⟩
  rotate_left
  · obtain ⟨i, hi, rfl, he, _⟩ := split_prog e
    change i < 7 at hi
    interval_cases i <;> simp [waveProg] at he <;> subst he <;> trivial
  rw [h2 u hu]
  rcases wave_returned hu with rfl | rfl | rfl | rfl | rfl <;> decide

/-- The arrays of the program, for the array `p` of `x`. -/
noncomputable def waveVal (p : Fin 2 → ℝ) (u : Ref) (i : Nat) : ℝ :=
  if h : i < 2 then
    let x := p ⟨i, h⟩
    if u = 1 then x
    else if u = 2 then Real.exp x
    else if u = 3 ∨ u = 4 then x * Real.exp x
    else if u = 6 ∧ i = 0 then p 0 * Real.exp (p 0) + p 1 * Real.exp (p 1)
    else 0
  else 0

theorem wave_ret {u : Ref} (h : u = 1 ∨ u = 2 ∨ u = 3 ∨ u = 4 ∨ u = 6) : Returned progGEnv waveOps u := by
  rcases h with rfl | rfl | rfl | rfl | rfl
  · exact ⟨[], .createIndep "x", _, rfl, by show _ = _; decide⟩
  · exact ⟨waveOps.take 1, .combine [1], _, rfl, by show _ = _; decide⟩
  · exact ⟨waveOps.take 2, .combine [1, 2], _, rfl, by show _ = _; decide⟩
  · exact ⟨waveOps.take 3, .createOutput "f", _, rfl, by show _ = _; decide⟩
  · exact ⟨waveOps.take 5, .combine [3], _, rfl, by show _ = _; decide⟩

theorem wave_solves {l : Layout} (h : ∀ u, Returned progGEnv waveOps u → l.shape u = waveShape u) (p : Fin 2 → ℝ) :
    Solves progGEnv waveProg l.shape [1, 2, 3, 4, 6] (waveVal p) where
  expr := by
    intro a c b e _
    have h1 : l.shape 1 = [2] := h 1 (wave_ret (by simp))
    have h2 : l.shape 2 = [2] := h 2 (wave_ret (by simp))
    have h3 : l.shape 3 = [2] := h 3 (wave_ret (by simp))
    obtain ⟨i, hi, rfl, he, _⟩ := split_prog e
    change i < 7 at hi
    interval_cases i <;> simp [waveProg] at he <;> subst he
    · refine ⟨⟨fun _ _ => trivial, by simp⟩, fun idx hidx => ?_⟩
      rw [show Term.outShape l.shape (.unary .exp 1) = [2] from h1] at hidx ⊢
      obtain ⟨i, rfl, hi⟩ := inBounds_one hidx
      rw [show (final progGEnv (ops (waveProg.take 1))).next = 2 by decide]
      rw [show ravel [2] [i] = i by simp [ravel, prodShape]]
      simp [Term.entry, entryAt, h1, Unary.named, ravel, prodShape, waveVal, hi]
    · refine ⟨⟨by simp, by simp⟩, fun idx hidx => ?_⟩
      rw [show Term.outShape l.shape (.mul (.ref 1) (.ref 2)) = [2] from h1] at hidx ⊢
      obtain ⟨i, rfl, hi⟩ := inBounds_one hidx
      rw [show (final progGEnv (ops (waveProg.take 2))).next = 3 by decide]
      rw [show ravel [2] [i] = i by simp [ravel, prodShape]]
      simp [Term.entry, Arg.entry, entryAt, h1, h2, ravel, prodShape, waveVal, hi]
    · refine ⟨trivial, fun idx hidx => ?_⟩
      obtain ⟨i, rfl, hi⟩ := inBounds_one (m := 1) hidx
      obtain rfl : i = 0 := by omega
      rw [show (final progGEnv (ops (waveProg.take 5))).next = 6 by decide]
      simp [Term.entry, Term.outShape, allEntries, h3, ravel, prodShape, waveVal, List.range_succ]
  item := fun a x key b e => absurd rfl ((wave_noItem e).1 x key)
  assign := fun a out key e b he => absurd rfl ((wave_noItem he).2 out key e)
  rest := by
    rintro out ⟨a, key, e, b, he⟩
    exact absurd rfl ((wave_noItem he).2 out key e)
  define := by
    intro a out e b hp _ _ _
    obtain ⟨i, hi, rfl, he, _⟩ := split_prog hp
    change i < 7 at hi
    interval_cases i <;> simp [waveProg] at he
    obtain ⟨rfl, rfl⟩ := he
    funext i
    simp [waveVal]
  zero := by
    intro u i hi
    unfold waveVal
    by_cases hu : u = 1 ∨ u = 2 ∨ u = 3 ∨ u = 4 ∨ u = 6
    · rw [h u (wave_ret hu)] at hi
      rcases hu with rfl | rfl | rfl | rfl | rfl <;> simp [waveShape, prodShape] at hi ⊢ <;> omega
    · push Not at hu
      obtain ⟨g1, g2, g3, g4, g6⟩ := hu
      simp [g1, g2, g3, g4, g6]

/-- The array of `x` is that of `p`; everything else starts with zeros. -/
noncomputable def waveInit (p : Fin 2 → ℝ) : Store (FlatArr waveSize) := fun n i => if n = "x" then waveVal p 1 i else 0

theorem wave_starts (p : Fin 2 → ℝ) :
    Starts progGEnv waveProg (size := waveSize) (waveInit p) (waveVal p) := by
  intro u hu hk i
  rw [wave_ops] at hu
  have h1 : u = 1 := by
    rcases wave_returned hu with rfl | rfl | rfl | rfl | rfl <;> revert hk <;> decide
  subst h1
  exact if_pos (by decide)

noncomputable def waveSeed (n : String) : (Fin 2 → ℝ) →L[ℝ] FlatArr waveSize n :=
  if n = "x" then ContinuousLinearMap.pi fun i : Fin (waveSize n) =>
    if h : i.1 < 2 then ContinuousLinearMap.proj (⟨i, h⟩ : Fin 2) else 0
  else 0

theorem wave_seed (p₀ : Fin 2 → ℝ) (n : String) : HasFDerivAt (fun p => waveInit p n) (waveSeed n) p₀ := by
  rw [hasFDerivAt_pi']
  intro i
  by_cases hn : n = "x"
  · subst hn
    have hi : i.1 < 2 := i.2
    have h : (fun p => waveInit p "x" i) = fun p : Fin 2 → ℝ => p ⟨i.1, hi⟩ := by
      funext p
      simp [waveInit, waveVal, hi]
    rw [h]
    refine (hasFDerivAt_apply (⟨i.1, hi⟩ : Fin 2) p₀).congr_fderiv ?_
    ext v
    simp [waveSeed, Nat.le_of_lt_succ hi]
  · have h : (fun p => waveInit p n i) = fun _ : Fin 2 → ℝ => (0 : ℝ) := by
      funext p
      simp [waveInit, hn]
    rw [h]
    refine (hasFDerivAt_const (0 : ℝ) p₀).congr_fderiv ?_
    ext v
    simp [waveSeed, hn]

/-- OpenMDAO computes the sum of the `x exp x`. -/
example (p : Fin 2 → ℝ) : ∃ l S, compileProgram progGEnv waveProg = .ok l ∧
    runAllE ([1, 2, 3, 4, 6].map (l.compE (final progGEnv (ops waveProg)) (wires progGEnv (ops waveProg)) waveSize))
      (waveInit p) = .ok S ∧
    S "s" ⟨0, by decide⟩ = p 0 * Real.exp (p 0) + p 1 * Real.exp (p 1) := by
  obtain ⟨l, hc, hl⟩ := wave_compiled
  obtain ⟨⟨S, hS, hv, -⟩, -⟩ := c69_values hc (wave_solves hl p) (wave_starts p)
  refine ⟨l, S, hc.compile, hS, ?_⟩
  have := hv 6 ⟨wave_ret (by simp), Or.inr ⟨6, by simp, Or.inr ⟨by decide, rfl⟩⟩⟩ ⟨0, by decide⟩
  rw [show S "s" ⟨0, _⟩ = waveVal p 6 0 from this]
  simp [waveVal]

/-- The total derivative of this sum along `v`, assembled from the partials of the components. -/
example (p v : Fin 2 → ℝ) : ∃ l tangents, compileProgram progGEnv waveProg = .ok l ∧
    TotalSystem (· ∈ [1, 2, 3, 4, 6]) (l.comp (final progGEnv (ops waveProg)) (wires progGEnv (ops waveProg)) waveSize)
      (l.partials (final progGEnv (ops waveProg)) (wires progGEnv (ops waveProg)) waveSize)
      (runAll ([1, 2, 3, 4, 6].map (l.comp (final progGEnv (ops waveProg)) (wires progGEnv (ops waveProg)) waveSize))
        (waveInit p)) waveSeed tangents ∧
    tangents "s" v ⟨0, by decide⟩ =
      (Real.exp (p 0) + p 0 * Real.exp (p 0)) * v 0 + (Real.exp (p 1) + p 1 * Real.exp (p 1)) * v 1 := by
  obtain ⟨l, hc, hl⟩ := wave_compiled
  obtain ⟨h1, h2⟩ := c69_totals hc (p₀ := p) (init := waveInit)
    (Filter.Eventually.of_forall fun p => ⟨wave_solves hl p, wave_starts p⟩) (wave_seed p)
  refine ⟨l, _, hc.compile, (h2 _).2 rfl, ?_⟩
  have h3 := h1 6 ⟨wave_ret (by simp), Or.inr ⟨6, by simp, Or.inr ⟨by decide, rfl⟩⟩⟩
  have h4 := (hasFDerivAt_pi'.1 h3) ⟨0, by decide⟩
  have h5 : HasFDerivAt (fun q : Fin 2 → ℝ => waveVal q 6 0)
      ((Real.exp (p 0) + p 0 * Real.exp (p 0)) • ContinuousLinearMap.proj 0 +
        (Real.exp (p 1) + p 1 * Real.exp (p 1)) • ContinuousLinearMap.proj 1 : (Fin 2 → ℝ) →L[ℝ] ℝ) p := by
    have hx : ∀ i : Fin 2, HasFDerivAt (fun q : Fin 2 → ℝ => q i)
        (ContinuousLinearMap.proj i : (Fin 2 → ℝ) →L[ℝ] ℝ) p := fun i => hasFDerivAt_apply i p
    have := ((hx 0).mul ((hx 0).exp)).add ((hx 1).mul ((hx 1).exp))
    refine (this.congr_of_eventuallyEq (Filter.Eventually.of_forall fun q => by simp [waveVal])).congr_fderiv ?_
    ext v
    simp
    ring
  have h6 := DFunLike.congr_fun (h4.unique h5) v
  refine h6.trans ?_
  simp

/-! ## A program with parts of arrays -/

/-- `x` (1) of shape `(3,)`, its part `x[0:2]` (3, computed by 2), `exp(x[0:2])` (4), which is assigned to `f[0:2]` of
the output `f` (5), and `x[2]` (6), which is assigned to `f[2]`. -/
noncomputable def partsProg : List Stmt :=
  [.createIndep "x" [3], .getItem 1 (.one (.slice (some 0) (some 2) none)), .expr (.unary .exp 3),
   .createOutput "f" [3], .setItem 5 (.one (.slice (some 0) (some 2) none)) 4, .getItem 1 (.one (.int 2)),
   .setItem 5 (.one (.int 2)) 6]

def partsOps : List Op :=
  [.createIndep "x", .getItem 1, .combine [3], .createOutput "f", .setItem 5 4 none, .getItem 1, .setItem 5 6 none]

theorem parts_ops : ops partsProg = partsOps := rfl

theorem parts_ret {u : Ref} (h : u = 1 ∨ u = 3 ∨ u = 4 ∨ u = 5 ∨ u = 6) : Returned progGEnv partsOps u := by
  rcases h with rfl | rfl | rfl | rfl | rfl
  · exact ⟨[], .createIndep "x", _, rfl, by show _ = _; decide⟩
  · exact ⟨partsOps.take 1, .getItem 1, _, rfl, by show _ = _; decide⟩
  · exact ⟨partsOps.take 2, .combine [3], _, rfl, by show _ = _; decide⟩
  · exact ⟨partsOps.take 3, .createOutput "f", _, rfl, by show _ = _; decide⟩
  · exact ⟨partsOps.take 5, .getItem 1, _, rfl, by show _ = _; decide⟩

theorem parts_returned {u : Ref} (h : Returned progGEnv partsOps u) : u = 1 ∨ u = 3 ∨ u = 4 ∨ u = 5 ∨ u = 6 := by
  obtain ⟨a, op, b, e, h⟩ := h
  obtain ⟨i, hi, rfl, h1, _⟩ := split_cases e
  change i < 7 at hi
  interval_cases i <;> simp [partsOps] at h1 <;> subst h1
  · exact Or.inl h
  · have : u + 1 = 4 := h
    omega
  · have : u = 4 := h
    omega
  · have : u = 5 := h
    omega
  · exact h.elim
  · have : u + 1 = 7 := h
    omega
  · exact h.elim

theorem parts_programOk : ProgramOk progGEnv demoEnv noSub partsOps where
  group := groupOk_of_check (by decide) ⟨trivial, trivial, trivial, trivial,
    not_reach [4, 3, 2, 1] (by decide) (by decide) (by decide), trivial,
    not_reach [6, 2, 1] (by decide) (by decide) (by decide), trivial⟩ (by decide) 8 pyOrder_ascending (by decide)
  uses := by
    intro a op b e u hu
    obtain ⟨i, hi, rfl, h1, _⟩ := split_cases e
    change i < 7 at hi
    have r1 : ∀ k, Returned progGEnv (partsOps.take (k + 1)) 1 := fun k =>
      ⟨[], .createIndep "x", _, rfl, by show _ = _; decide⟩
    have r3 : ∀ k, Returned progGEnv (partsOps.take (k + 2)) 3 := fun k =>
      ⟨partsOps.take 1, .getItem 1, _, rfl, by show _ = _; decide⟩
    have r4 : ∀ k, Returned progGEnv (partsOps.take (k + 3)) 4 := fun k =>
      ⟨partsOps.take 2, .combine [3], _, rfl, by show _ = _; decide⟩
    have r5 : ∀ k, Returned progGEnv (partsOps.take (k + 4)) 5 := fun k =>
      ⟨partsOps.take 3, .createOutput "f", _, rfl, by show _ = _; decide⟩
    have r6 : ∀ k, Returned progGEnv (partsOps.take (k + 6)) 6 := fun k =>
      ⟨partsOps.take 5, .getItem 1, _, rfl, by show _ = _; decide⟩
    interval_cases i <;> simp [partsOps] at h1 <;> subst h1 <;> simp [Op.uses] at hu
    · subst hu; exact r1 0
    · subst hu; exact r3 0
    · rcases hu with rfl | rfl
      · exact r5 0
      · exact r4 1
    · subst hu; exact r1 4
    · rcases hu with rfl | rfl
      · exact r5 2
      · exact r6 0
  feedback := by
    intro a out e b h
    obtain ⟨i, hi, rfl, h1, _⟩ := split_cases h
    change i < 7 at hi
    interval_cases i <;> simp [partsOps] at h1
  own := by
    rintro u v ⟨hu, hu'⟩ ⟨hv, hv'⟩
    change u < 7 at hu
    change v < 7 at hv
    revert hu' hv'
    interval_cases u <;> interval_cases v <;> decide
  subs := by
    rintro s n ⟨a, nm, b, e, rfl⟩
    obtain ⟨i, hi, rfl, h1, _⟩ := split_cases e
    change i < 7 at hi
    interval_cases i <;> simp [partsOps] at h1
  inputs := by
    intro a nm b h
    obtain ⟨i, hi, rfl, h1, _⟩ := split_cases h
    change i < 7 at hi
    interval_cases i <;> simp [partsOps] at h1
  subReads := by
    intro a nm b h
    obtain ⟨i, hi, rfl, h1, _⟩ := split_cases h
    change i < 7 at hi
    interval_cases i <;> simp [partsOps] at h1

def partsShape (u : Ref) : List Nat := if u = 0 then [] else if u = 6 then [1] else if u = 3 ∨ u = 4 then [2] else [3]

def partsSize (n : String) : Nat := if n = "x" ∨ n = "f" then 3 else if n = "______" then 1 else 2

theorem parts_range : IsRange 0 2 1 [0, 1] := pyRange_isRange 0 2 1 (by decide)

theorem parts_front : KeySelects [3] (Key.one (.slice (some 0) (some 2) none)).items [[0, 1]] :=
  .cons parts_range .nil

theorem parts_back : KeySelects [3] (Key.one (.int 2)).items [[2]] := .cons ⟨by decide, by decide, rfl⟩ .nil

theorem parts_inRange : List.Forall₂ ItemInRange [3] (Key.one (.slice (some 0) (some 2) none)).items ∧
    List.Forall₂ ItemInRange [3] (Key.one (.int 2)).items := by
  refine ⟨.cons ⟨by simp, by simp, by decide, by decide, fun h => ?_⟩ .nil, .cons ⟨by decide, by decide⟩ .nil⟩
  have := isRange_unique h parts_range
  cases this

/-- The elements assigned. -/
theorem parts_touched {pos : List Nat} :
    (Touched [3] (.one (.slice (some 0) (some 2) none)) pos ↔ pos = [0, 1]) ∧
    (Touched [3] (.one (.int 2)) pos ↔ pos = [2]) := by
  have h1 : Touched [3] (.one (.slice (some 0) (some 2) none)) [0, 1] := ⟨3, [], rfl, parts_range⟩
  have h2 : Touched [3] (.one (.int 2)) [2] := ⟨by decide, rfl⟩
  exact ⟨⟨fun h => touched_unique h h1, fun h => h ▸ h1⟩, ⟨fun h => touched_unique h h2, fun h => h ▸ h2⟩⟩

theorem parts_plain {shape : Ref → List Nat} (hs : ∀ u, Returned progGEnv partsOps u → shape u = partsShape u)
    {a b : List Stmt} {st : Stmt} (e : partsProg = a ++ st :: b) : st.Plain progGEnv shape a := by
  have h1 : shape 1 = [3] := hs 1 (parts_ret (by simp))
  have h5 : shape 5 = [3] := hs 5 (parts_ret (by simp))
  obtain ⟨i, hi, rfl, he, _⟩ := split_prog e
  change i < 7 at hi
  interval_cases i <;> simp [partsProg] at he <;> subst he
  · trivial
  · exact ⟨Or.inl (by decide), by rw [h1]; exact parts_inRange.1⟩
  · trivial
  · trivial
  · show List.Forall₂ ItemInRange (shape 5) _
    rw [h5]; exact parts_inRange.1
  · exact ⟨Or.inl (by decide), by rw [h1]; exact parts_inRange.2⟩
  · show List.Forall₂ ItemInRange (shape 5) _
    rw [h5]; exact parts_inRange.2

/-- Statements that read or assign parts. -/
theorem parts_setItem {a b : List Stmt} {out e : Ref} {key : Key} (h : partsProg = a ++ .setItem out key e :: b) :
    out = 5 ∧ ((a = partsProg.take 4 ∧ key = .one (.slice (some 0) (some 2) none) ∧ e = 4) ∨
      (a = partsProg.take 6 ∧ key = .one (.int 2) ∧ e = 6)) := by
  obtain ⟨i, hi, rfl, he, _⟩ := split_prog h
  change i < 7 at hi
  interval_cases i <;> simp [partsProg] at he
  · obtain ⟨rfl, rfl, rfl⟩ := he
    exact ⟨rfl, Or.inl ⟨rfl, rfl, rfl⟩⟩
  · obtain ⟨rfl, rfl, rfl⟩ := he
    exact ⟨rfl, Or.inr ⟨rfl, rfl, rfl⟩⟩

theorem parts_getItem {a b : List Stmt} {x : Ref} {key : Key} (h : partsProg = a ++ .getItem x key :: b) :
    x = 1 ∧ ((a = partsProg.take 1 ∧ key = .one (.slice (some 0) (some 2) none)) ∨
      (a = partsProg.take 5 ∧ key = .one (.int 2))) := by
  obtain ⟨i, hi, rfl, he, _⟩ := split_prog h
  change i < 7 at hi
  interval_cases i <;> simp [partsProg] at he
  · obtain ⟨rfl, rfl⟩ := he
    exact ⟨rfl, Or.inl ⟨rfl, rfl⟩⟩
  · obtain ⟨rfl, rfl⟩ := he
    exact ⟨rfl, Or.inr ⟨rfl, rfl⟩⟩

theorem parts_fits {a b : List Stmt} {st : Stmt} (e : partsProg = a ++ st :: b) :
    st.Fits progGEnv (final progGEnv partsOps).name partsShape a := by
  obtain ⟨i, hi, rfl, h1, _⟩ := split_prog e
  change i < 7 at hi
  interval_cases i <;> simp [partsProg] at h1 <;> subst h1
  · show partsShape _ = _; decide
  · refine ⟨_, parts_front, fun u hu => ?_⟩
    have : u + 1 = 4 := hu
    obtain rfl : u = 3 := by omega
    decide
  · exact ⟨trivial, by decide⟩
  · show partsShape _ = _; decide
  · refine ⟨by decide, ⟨_, parts_front, by decide⟩, fun a1 key' e' a2 ha => ?_⟩
    have hp : partsProg = a1 ++ .setItem 5 key' e' :: (a2 ++ partsProg.drop 4) := by
      have := congrArg (· ++ partsProg.drop 4) ha
      simp only [List.take_append_drop, List.append_assoc, List.cons_append] at this
      exact this
    have hlen := congrArg List.length ha
    rcases (parts_setItem hp).2 with ⟨rfl, -⟩ | ⟨rfl, -⟩ <;> simp [partsProg] at hlen
  · refine ⟨_, parts_back, fun u hu => ?_⟩
    have : u + 1 = 7 := hu
    obtain rfl : u = 6 := by omega
    decide
  · refine ⟨by decide, ⟨_, parts_back, by decide⟩, fun a1 key' e' a2 ha => ?_⟩
    have hp : partsProg = a1 ++ .setItem 5 key' e' :: (a2 ++ partsProg.drop 6) := by
      have := congrArg (· ++ partsProg.drop 6) ha
      simp only [List.take_append_drop, List.append_assoc, List.cons_append] at this
      exact this
    have hlen := congrArg List.length ha
    rcases (parts_setItem hp).2 with ⟨rfl, rfl, rfl⟩ | ⟨rfl, -⟩
    · refine ⟨by decide, fun p q hp hq i hi => ?_⟩
      obtain rfl := (parts_touched).1.1 hp
      obtain rfl := positions_unique hq ⟨_, parts_back, isBlock_one 3 [2]⟩
      revert hi
      simp
      omega
    · simp [partsProg] at hlen

theorem parts_compiled : ∃ l, Compiled progGEnv demoEnv noSub partsProg l [1, 2, 4, 5] partsSize ∧
    ∀ u, Returned progGEnv partsOps u → l.shape u = partsShape u := by
  obtain ⟨l, h1, h2⟩ := c69_compiles (genv := progGEnv) (env := demoEnv) (prog := partsProg) (shape := partsShape)
    parts_programOk.toProgramCore rfl (fun a st b e => parts_plain (fun _ _ => rfl) e) fun a st b e => parts_fits e
  refine ⟨l, ⟨.of parts_programOk.toProgramCore h1 (by rw [parts_ops]; decide) (fun u hu => ?_) ?_ ?_ ?_ fun a c b e => ?_, parts_programOk⟩, h2⟩
  · rw [h2 u hu]
    rcases parts_returned hu with rfl | rfl | rfl | rfl | rfl <;> decide
  · intro a out e b he nm hm
    obtain ⟨i, hi, rfl, h1, hb⟩ := split_cases he
    have : Op.registerOutput nm e ∈ partsOps := by rw [show partsOps = ops partsProg from rfl, he]; simp [hm]
    simp [partsOps] at this
  · intro a x key b he
    obtain ⟨rfl, -⟩ := parts_getItem he
    exact Or.inl (by rw [parts_ops]; decide)
  · intro a out key e b he k hk
    rcases (parts_setItem he).2 with ⟨-, rfl, -⟩ | ⟨-, rfl, -⟩
    · cases hk
    · cases hk; decide
  · obtain ⟨i, hi, rfl, he, _⟩ := split_prog e
    change i < 7 at hi
    interval_cases i <;> simp [partsProg] at he <;> subst he <;> trivial

/-- The arrays of the program, for the array `p` of `x`. -/
noncomputable def partsVal (p : Fin 3 → ℝ) (u : Ref) (i : Nat) : ℝ :=
  if h : i < prodShape (partsShape u) ∧ i < 3 then
    if u = 1 ∨ u = 3 then p ⟨i, h.2⟩
    else if u = 4 then Real.exp (p ⟨i, h.2⟩)
    else if u = 5 then (if i = 2 then p 2 else Real.exp (p ⟨i, h.2⟩))
    else if u = 6 then p 2
    else 0
  else 0

theorem parts_solves {l : Layout} (h : ∀ u, Returned progGEnv partsOps u → l.shape u = partsShape u) (p : Fin 3 → ℝ) :
    Solves progGEnv partsProg l.shape [1, 2, 4, 5] (partsVal p) := by
  have h1 : l.shape 1 = [3] := h 1 (parts_ret (by simp))
  have h3 : l.shape 3 = [2] := h 3 (parts_ret (by simp))
  have h4 : l.shape 4 = [2] := h 4 (parts_ret (by simp))
  have h5 : l.shape 5 = [3] := h 5 (parts_ret (by simp))
  have h6 : l.shape 6 = [1] := h 6 (parts_ret (by simp))
  refine ⟨?_, ?_, ?_, ?_, ?_, ?_⟩
  · intro a c b e _
    obtain ⟨i, hi, rfl, he, _⟩ := split_prog e
    change i < 7 at hi
    interval_cases i <;> simp [partsProg] at he
    subst he
    refine ⟨⟨fun _ _ => trivial, by simp⟩, fun idx hidx => ?_⟩
    rw [show Term.outShape l.shape (.unary .exp 3) = [2] from h3] at hidx ⊢
    obtain ⟨i, rfl, hi⟩ := inBounds_one hidx
    rw [show (final progGEnv (ops (partsProg.take 2))).next = 4 by decide]
    rw [show ravel [2] [i] = i by simp [ravel, prodShape]]
    have : i < 3 := by omega
    simp [Term.entry, entryAt, h3, Unary.named, ravel, prodShape, partsVal, partsShape, hi, this]
  · intro a x key b e u d hu _ _ sels hsel j hj
    obtain ⟨rfl, ⟨rfl, rfl⟩ | ⟨rfl, rfl⟩⟩ := parts_getItem e
    · have : u + 1 = 4 := hu
      obtain rfl : u = 3 := by omega
      rw [h1] at hsel ⊢
      rw [h3] at hj ⊢
      obtain rfl := keySelects_unique hsel parts_front
      obtain ⟨i, rfl, hi⟩ := inBounds_one hj
      have hi' : i = 0 ∨ i = 1 := by omega
      rcases hi' with rfl | rfl <;> simp [ravel, prodShape, partsVal, partsShape]
    · have : u + 1 = 7 := hu
      obtain rfl : u = 6 := by omega
      rw [h1] at hsel ⊢
      rw [h6] at hj ⊢
      obtain rfl := keySelects_unique hsel parts_back
      obtain ⟨i, rfl, hi⟩ := inBounds_one hj
      obtain rfl : i = 0 := by omega
      simp [ravel, prodShape, partsVal, partsShape]
  · intro a out e b he
    obtain ⟨i, hi, rfl, he', _⟩ := split_prog he
    change i < 7 at hi
    interval_cases i <;> simp [partsProg] at he'
  · intro a out key e b he _ pos hpos k hk
    obtain ⟨rfl, ⟨rfl, rfl, rfl⟩ | ⟨rfl, rfl, rfl⟩⟩ := parts_setItem he
    · rw [h5] at hpos
      obtain rfl := parts_touched.1.1 hpos
      have hk' : k = 0 ∨ k = 1 := by simp at hk; omega
      rcases hk' with rfl | rfl <;> simp [prodShape, partsVal, partsShape]
    · rw [h5] at hpos
      obtain rfl := parts_touched.2.1 hpos
      obtain rfl : k = 0 := by simp at hk; omega
      simp [prodShape, partsVal, partsShape]
  · rintro out ⟨a, key, e, b, he⟩ _ i hi hfree
    obtain ⟨rfl, -⟩ := parts_setItem he
    exfalso
    rw [h5] at hi hfree
    have f1 := hfree (partsProg.take 4) _ _ _ rfl _ (parts_touched.1.2 rfl)
    have f2 := hfree (partsProg.take 6) _ _ _ rfl _ (parts_touched.2.2 rfl)
    simp [prodShape] at hi f1 f2
    omega
  · intro u i hi
    unfold partsVal
    by_cases hu : u = 1 ∨ u = 3 ∨ u = 4 ∨ u = 5 ∨ u = 6
    · rw [h u (parts_ret hu)] at hi
      rw [dif_neg (by omega)]
    · push Not at hu
      obtain ⟨g1, g3, g4, g5, g6⟩ := hu
      simp [g1, g3, g4, g5, g6]

/-- The array of `x` is that of `p`; everything else starts with zeros. -/
noncomputable def partsInit (p : Fin 3 → ℝ) : Store (FlatArr partsSize) := fun n i => if n = "x" then partsVal p 1 i else 0

theorem parts_starts (p : Fin 3 → ℝ) :
    Starts progGEnv partsProg (size := partsSize) (partsInit p) (partsVal p) := by
  intro u hu hk i
  rw [parts_ops] at hu
  have h1 : u = 1 := by
    rcases parts_returned hu with rfl | rfl | rfl | rfl | rfl <;> revert hk <;> decide
  subst h1
  exact if_pos (by decide)

/-- OpenMDAO computes `(exp(x[0]), exp(x[1]), x[2])`. -/
example (p : Fin 3 → ℝ) : ∃ l S, compileProgram progGEnv partsProg = .ok l ∧
    runAllE ([1, 2, 4, 5].map (l.compE (final progGEnv (ops partsProg)) (wires progGEnv (ops partsProg)) partsSize))
      (partsInit p) = .ok S ∧
    S "f" ⟨0, by decide⟩ = Real.exp (p 0) ∧ S "f" ⟨1, by decide⟩ = Real.exp (p 1) ∧ S "f" ⟨2, by decide⟩ = p 2 := by
  obtain ⟨l, hc, hl⟩ := parts_compiled
  obtain ⟨⟨S, hS, hv, -⟩, hout⟩ := c69_values hc (parts_solves hl p) (parts_starts p)
  have := hv 5 (hout 5 (parts_ret (by simp)) (by rw [parts_ops]; decide))
  refine ⟨l, S, hc.compile, hS, ?_, ?_, ?_⟩
  · rw [show S "f" ⟨0, _⟩ = partsVal p 5 0 from this ⟨0, by decide⟩]
    simp [partsVal, partsShape, prodShape]
  · rw [show S "f" ⟨1, _⟩ = partsVal p 5 1 from this ⟨1, by decide⟩]
    simp [partsVal, partsShape, prodShape]
  · rw [show S "f" ⟨2, _⟩ = partsVal p 5 2 from this ⟨2, by decide⟩]
    simp [partsVal, partsShape, prodShape]

end OM
