import Verif.Spec.Term
import Verif.Lemmas.Built
import Verif.Props.Arith
import Verif.Props.Product
import Verif.Props.Inner
import Verif.Props.Cross
import Verif.Props.IfElse
import Verif.Props.Extremum

/-! # The component built for a call computes what the call means -/

namespace OM
open Spec

/-- A component computes the entries `e` at inputs `inp`, without an exception, and its partials are exact. -/
structure Built.Good (b : Built) (s : List Nat) (e : List Nat → ℝ) (inp : String → Nat → ℝ) : Prop where
  shape : b.shape = s
  value : ∃ r, b.compute inp = .ok r ∧ ∀ idx, InBounds s idx → r (ravel s idx) = e idx
  partials : ∃ p, b.partials inp = .ok p
  exact : ExactPartials b.ins (prodShape b.shape) b.total (b.coo inp) inp

/-- The inputs of a component are the operands with their sizes, each once. -/
structure Built.Wired (b : Built) (name : Ref → String) (shape : Ref → List Nat) (refs : List Ref) : Prop where
  nodup : (b.ins.map Prod.fst).Nodup
  ins : ∀ p ∈ b.ins, ∃ u ∈ refs, p = (name u, prodShape (shape u))
  all : ∀ u ∈ refs, name u ∈ b.ins.map Prod.fst

theorem good_of {ins : List (String × Nat)} {s : List Nat} {compute : (String → Nat → ℝ) → Nat → ℝ}
    {partials : (String → Nat → ℝ) → String → Coo} {shape : List Nat} {e : List Nat → ℝ}
    {inp : String → Nat → ℝ} (hs : s = shape)
    (hv : ∀ idx, InBounds shape idx → compute inp (ravel shape idx) = e idx)
    (hp : ExactPartials ins (prodShape shape) compute (partials inp) inp) :
    Built.Good ⟨ins, s, fun inp => .ok (compute inp), fun inp => .ok (partials inp)⟩ shape e inp := by
  subst hs
  exact ⟨rfl, ⟨_, rfl, hv⟩, ⟨_, rfl⟩, hp⟩

theorem builtOf_ok {β : Type} {c : Except PyErr β} {setup : β → Except PyErr Unit} {built : β → Built} {b : Built}
    (h : builtOf c setup built = .ok b) : ∃ x, c = .ok x ∧ setup x = .ok () ∧ b = built x := by
  unfold builtOf at h
  split at h
  · cases h
  · split at h
    · cases h
    · cases h
      rename_i x _ hx
      exact ⟨x, rfl, hx, rfl⟩

theorem builtLin_ok {c : Except PyErr (Option LinOpts)} {b : Built} (h : builtLin c = .ok b) :
    ∃ o k, c = .ok (some o) ∧ o.setup = .ok k ∧
      b = ⟨k.ins, o.shape, fun inp => .ok (k.compute inp), fun _ => .ok k.partials⟩ := by
  unfold builtLin at h
  split at h
  · cases h
  · cases h
  · rename_i o
    split at h
    · cases h
    · rename_i k hk
      cases h
      exact ⟨o, k, rfl, hk, rfl⟩

theorem builtPow_ok {c : Except PyErr (Option PowOpts)} {b : Built} (h : builtPow c = .ok b) :
    ∃ o k, c = .ok (some o) ∧ o.setup = .ok k ∧
      b = ⟨k.ins, o.shape, k.compute, fun inp => .ok (k.computePartials inp).2⟩ := by
  unfold builtPow at h
  split at h
  · cases h
  · cases h
  · rename_i o
    split at h
    · cases h
    · rename_i k hk
      cases h
      exact ⟨o, k, rfl, hk, rfl⟩

theorem linSetup_size {o : LinOpts} {k : Lin} (h : o.setup = .ok k) : k.size = prodShape o.shape := by
  unfold LinOpts.setup at h
  simp only at h
  split at h
  · cases h; rfl
  · cases h

theorem powSetup_size {o : PowOpts} {k : Pow} (h : o.setup = .ok k) : k.size = prodShape o.shape := by
  unfold PowOpts.setup at h
  split at h
  · cases h; rfl
  · cases h

theorem axisOf_names {rank : Nat} {a : Int} {k : Nat} (h : NamesAxis rank a k) : axisOf rank a = k := by
  unfold axisOf
  obtain ⟨h1, h2⟩ := h
  split <;> omega

theorem axesOf_names {rank : Nat} {ax : List Int} {l : List Nat} (h : NamesAxes rank ax l) :
    axesOf rank ax = l := by
  obtain ⟨-, h⟩ := h
  unfold axesOf
  induction h with
  | nil => rfl
  | cons h _ ih => rw [List.map_cons, ih, axisOf_names h]

/-! ## Arithmetic -/

/-- The operand is a constant or has the shape `s`. -/
def Arg.Fits (shape : Ref → List Nat) (s : List Nat) : Arg → Prop
  | .ref u => shape u = s
  | .const _ => True

theorem fits_value {name : Ref → String} {shape : Ref → List Nat} {val : Ref → Nat → ℝ}
    {inp : String → Nat → ℝ} {a : Arg} {s : List Nat} (hf : a.Fits shape s)
    (ha : ∀ u ∈ a.refs, inp (name u) = val u) (idx : List Nat) :
    (a.operand name shape).value inp (ravel s idx) = a.entry shape val s idx := by
  rcases a with u | (c | c)
  · have : shape u = s := hf
    subst this
    simp only [Arg.operand, Operand.value, Arg.entry, entryAt, ha u (by simp [Arg.refs])]
  · rfl
  · rfl

/-- What the four operators accept. -/
structure Arith (name : Ref → String) (shape : Ref → List Nat) (a b : Arg) (s : List Nat)
    (names used : List String) : Prop where
  left : a.Fits shape (Arg.shape2 shape a b)
  right : b.Fits shape (Arg.shape2 shape a b)
  eq : s = Arg.shape2 shape a b
  names : ∀ n ∈ names, ∃ u ∈ a.refs ++ b.refs, n = name u ∧ shape u = s
  all : ∀ u ∈ a.refs ++ b.refs, name u ∈ used

section
variable {name : Ref → String} {shape : Ref → List Nat} {a b : Arg}

theorem arith_add {o : LinOpts} (h : pyOperator buildAdd (a.operand name shape) (b.operand name shape) = .ok (some o)) :
    Arith name shape a b o.shape o.inNames ((o.inNames.zip (getScalarsList o.coeffs o.inNames)).map Prod.fst) := by
  rcases a with u | (c | c) <;> rcases b with v | d <;>
    simp only [Arg.operand, pyOperator, buildAdd] at h
  · split at h
    · rename_i he
      cases h
      exact ⟨rfl, he.symm, rfl, by simp [Arg.refs, he], by simp [Arg.refs, getScalarsList, getPowersList]⟩
    · cases h
  all_goals cases h
  all_goals first
    | exact ⟨rfl, trivial, rfl, by simp [Arg.refs], by simp [Arg.refs, getScalarsList, getPowersList]⟩
    | exact ⟨trivial, rfl, rfl, by simp [Arg.refs], by simp [Arg.refs, getScalarsList, getPowersList]⟩

theorem arith_sub {o : LinOpts} (h : pyOperator buildSub (a.operand name shape) (b.operand name shape) = .ok (some o)) :
    Arith name shape a b o.shape o.inNames ((o.inNames.zip (getScalarsList o.coeffs o.inNames)).map Prod.fst) := by
  rcases a with u | (c | c) <;> rcases b with v | d <;>
    simp only [Arg.operand, pyOperator, buildSub] at h
  · split at h
    · rename_i he
      cases h
      exact ⟨rfl, he.symm, rfl, by simp [Arg.refs, he], by simp [Arg.refs, getScalarsList, getPowersList]⟩
    · cases h
  all_goals cases h
  all_goals first
    | exact ⟨rfl, trivial, rfl, by simp [Arg.refs], by simp [Arg.refs, getScalarsList, getPowersList]⟩
    | exact ⟨trivial, rfl, rfl, by simp [Arg.refs], by simp [Arg.refs, getScalarsList, getPowersList]⟩

theorem arith_mul {o : PowOpts} (h : pyOperator buildMul (a.operand name shape) (b.operand name shape) = .ok (some o)) :
    Arith name shape a b o.shape o.inNames ((o.inNames.zip (getPowersList o.powers o.inNames)).map Prod.fst) := by
  rcases a with u | (c | c) <;> rcases b with v | d <;>
    simp only [Arg.operand, pyOperator, buildMul] at h
  · split at h
    · rename_i he
      cases h
      exact ⟨rfl, he.symm, rfl, by simp [Arg.refs, he], by simp [Arg.refs, getScalarsList, getPowersList]⟩
    · cases h
  all_goals cases h
  all_goals first
    | exact ⟨rfl, trivial, rfl, by simp [Arg.refs], by simp [Arg.refs, getScalarsList, getPowersList]⟩
    | exact ⟨trivial, rfl, rfl, by simp [Arg.refs], by simp [Arg.refs, getScalarsList, getPowersList]⟩

theorem arith_div {o : PowOpts} (h : pyOperator buildDiv (a.operand name shape) (b.operand name shape) = .ok (some o)) :
    Arith name shape a b o.shape o.inNames ((o.inNames.zip (getPowersList o.powers o.inNames)).map Prod.fst) := by
  rcases a with u | (c | c) <;> rcases b with v | (d | d) <;>
    simp only [Arg.operand, pyOperator, buildDiv] at h
  · split at h
    · rename_i he
      cases h
      exact ⟨rfl, he.symm, rfl, by simp [Arg.refs, he], by simp [Arg.refs, getScalarsList, getPowersList]⟩
    · cases h
  · split at h
    · cases h
    · cases h
      exact ⟨rfl, trivial, rfl, by simp [Arg.refs], by simp [Arg.refs, getScalarsList, getPowersList]⟩
  · split at h
    · split at h
      · cases h
      · cases h
        exact ⟨rfl, trivial, rfl, by simp [Arg.refs], by simp [Arg.refs, getScalarsList, getPowersList]⟩
    · cases h
  all_goals cases h
  all_goals exact ⟨trivial, rfl, rfl, by simp [Arg.refs], by simp [Arg.refs, getScalarsList, getPowersList]⟩

end

theorem lin_wired {name : Ref → String} {shape : Ref → List Nat} {refs : List Ref} {o : LinOpts} {k : Lin}
    (hs : o.setup = .ok k) (hn : ∀ n ∈ o.inNames, ∃ u ∈ refs, n = name u ∧ shape u = o.shape)
    (hall : ∀ u ∈ refs, name u ∈ (o.inNames.zip (getScalarsList o.coeffs o.inNames)).map Prod.fst)
    (c : (String → Nat → ℝ) → Except PyErr (Nat → ℝ)) (p : (String → Nat → ℝ) → Except PyErr (String → Coo)) :
    (⟨k.ins, o.shape, c, p⟩ : Built).Wired name shape refs := by
  have hsize := linSetup_size hs
  unfold LinOpts.setup at hs
  simp only at hs
  split at hs
  · rename_i hnd
    cases hs
    refine ⟨?_, ?_, fun u hu => ?_⟩
    · simp only [Lin.ins, List.map_map]
      exact hnd
    · intro q hq
      simp only [Lin.ins, List.mem_map] at hq
      obtain ⟨t, ht, rfl⟩ := hq
      obtain ⟨u, hu, h1, h2⟩ := hn t.1 (List.of_mem_zip ht).1
      exact ⟨u, hu, by rw [h1, h2]⟩
    · have := hall u hu
      simpa [Lin.ins, List.map_map, Function.comp_def] using this
  · cases hs

theorem pow_wired {name : Ref → String} {shape : Ref → List Nat} {refs : List Ref} {o : PowOpts} {k : Pow}
    (hs : o.setup = .ok k) (hn : ∀ n ∈ o.inNames, ∃ u ∈ refs, n = name u ∧ shape u = o.shape)
    (hall : ∀ u ∈ refs, name u ∈ (o.inNames.zip (getPowersList o.powers o.inNames)).map Prod.fst)
    (c : (String → Nat → ℝ) → Except PyErr (Nat → ℝ)) (p : (String → Nat → ℝ) → Except PyErr (String → Coo)) :
    (⟨k.ins, o.shape, c, p⟩ : Built).Wired name shape refs := by
  unfold PowOpts.setup at hs
  split at hs
  · rename_i hnd
    cases hs
    refine ⟨?_, ?_, fun u hu => ?_⟩
    · simp only [Pow.ins, List.map_map]
      exact List.Sublist.nodup (zip_fst_sublist _ _) hnd
    · intro q hq
      simp only [Pow.ins, List.mem_map] at hq
      obtain ⟨t, ht, rfl⟩ := hq
      obtain ⟨u, hu, h1, h2⟩ := hn t.1 (List.of_mem_zip ht).1
      exact ⟨u, hu, by rw [h1, h2]⟩
    · have := hall u hu
      simpa [Pow.ins, List.map_map, Function.comp_def] using this
  · cases hs

theorem pow_good {k : Pow} {s : List Nat} {e : List Nat → ℝ} {inp : String → Nat → ℝ} {r : Nat → ℝ}
    (hsize : k.size = prodShape s) (hc : k.compute inp = .ok r)
    (hv : ∀ idx, InBounds s idx → r (ravel s idx) = e idx)
    (hp : ExactPartials k.ins k.size k.total (k.computePartials inp).2 inp) :
    Built.Good ⟨k.ins, s, k.compute, fun inp => .ok (k.computePartials inp).2⟩ s e inp := by
  refine ⟨rfl, ⟨r, hc, hv⟩, ⟨_, rfl⟩, ?_⟩
  rw [hsize] at hp
  have : k.total = Built.total ⟨k.ins, s, k.compute, fun inp => .ok (k.computePartials inp).2⟩ := by
    funext inp
    unfold Pow.total Built.total
    simp only
    cases k.compute inp <;> rfl
  rw [this] at hp
  exact hp

section
variable (name : Ref → String) (shape : Ref → List Nat) (val : Ref → Nat → ℝ) (inp : String → Nat → ℝ)

/-- What is shown for each call. -/
def Term.Correct (c : Term) : Prop :=
  ∀ B, c.build name shape = .ok B → B.Wired name shape c.refs ∧
    (c.Defined shape val → (∀ u ∈ c.refs, inp (name u) = val u) →
      B.Good (c.outShape shape) (c.entry shape val) inp)

theorem correct_add (a b : Arg) : (Term.add a b).Correct name shape val inp := by
  intro B hB
  rw [Term.build] at hB
  obtain ⟨o, k, ho, hk, rfl⟩ := builtLin_ok hB
  have hA := arith_add ho
  refine ⟨lin_wired hk hA.names hA.all _ _, fun _ hin => ?_⟩
  obtain ⟨h1, h2⟩ := c26_add ho hk inp
  rw [linSetup_size hk, hA.eq] at h2
  refine good_of hA.eq (fun idx _ => ?_) h2
  show k.compute inp (ravel (Arg.shape2 shape a b) idx) = _
  rw [h1, fits_value hA.left fun u hu => hin u (by simp [Term.refs, hu]),
    fits_value hA.right fun u hu => hin u (by simp [Term.refs, hu])]
  rfl

theorem correct_sub (a b : Arg) : (Term.sub a b).Correct name shape val inp := by
  intro B hB
  rw [Term.build] at hB
  obtain ⟨o, k, ho, hk, rfl⟩ := builtLin_ok hB
  have hA := arith_sub ho
  refine ⟨lin_wired hk hA.names hA.all _ _, fun _ hin => ?_⟩
  obtain ⟨h1, h2⟩ := c26_sub ho hk inp
  rw [linSetup_size hk, hA.eq] at h2
  refine good_of hA.eq (fun idx _ => ?_) h2
  show k.compute inp (ravel (Arg.shape2 shape a b) idx) = _
  rw [h1, fits_value hA.left fun u hu => hin u (by simp [Term.refs, hu]),
    fits_value hA.right fun u hu => hin u (by simp [Term.refs, hu])]
  rfl

theorem operand_arr {a : Arg} (h : ∀ x, a ≠ .const (.arr x)) (x : Nat → ℝ) :
    a.operand name shape ≠ .const (.arr x) := by
  rcases a with u | (c | c)
  · simp [Arg.operand]
  · simp [Arg.operand]
  · exact absurd rfl (h c)

theorem correct_mul (a b : Arg) : (Term.mul a b).Correct name shape val inp := by
  intro B hB
  rw [Term.build] at hB
  obtain ⟨o, k, ho, hk, rfl⟩ := builtPow_ok hB
  have hA := arith_mul ho
  refine ⟨pow_wired hk hA.names hA.all _ _, fun hd hin => ?_⟩
  obtain ⟨⟨r, h1, h2⟩, h3⟩ := c27_mul (operand_arr name shape hd.1) (operand_arr name shape hd.2) ho hk inp
  show Built.Good _ (Arg.shape2 shape a b) _ _
  rw [← hA.eq]
  refine pow_good (powSetup_size hk) h1 (fun idx _ => ?_) h3
  rw [h2, hA.eq, fits_value hA.left fun u hu => hin u (by simp [Term.refs, hu]),
    fits_value hA.right fun u hu => hin u (by simp [Term.refs, hu])]
  rfl

theorem correct_div (a b : Arg) : (Term.div a b).Correct name shape val inp := by
  intro B hB
  rw [Term.build] at hB
  obtain ⟨o, k, ho, hk, rfl⟩ := builtPow_ok hB
  have hA := arith_div ho
  refine ⟨pow_wired hk hA.names hA.all _ _, fun hd hin => ?_⟩
  obtain ⟨hd1, hd2, hd3⟩ := hd
  have hl := fun idx => fits_value hA.left (fun u hu => hin u (by simp [Term.refs, hu])) idx
  have hr := fun idx => fits_value hA.right (fun u hu => hin u (by simp [Term.refs, hu])) idx
  obtain ⟨⟨r, h1, h2⟩, h3⟩ := c27_div (operand_arr name shape hd1) (operand_arr name shape hd2) ho hk inp (by
    intro i hi
    rw [powSetup_size hk, hA.eq] at hi
    rw [← ravel_unravel hi, hr]
    exact hd3 _ (unravel_inBounds hi))
  show Built.Good _ (Arg.shape2 shape a b) _ _
  rw [← hA.eq]
  refine pow_good (powSetup_size hk) h1 (fun idx _ => ?_) h3
  rw [h2, hA.eq, hl, hr]
  rfl

theorem correct_pow (a : Ref) (p : ℝ) : (Term.pow a p).Correct name shape val inp := by
  intro B hB
  rw [Term.build] at hB
  obtain ⟨o, k, ho, hk, rfl⟩ := builtPow_ok hB
  cases ho
  refine ⟨pow_wired hk (by simp [buildPow, Term.refs]) (by simp [buildPow, Term.refs, getPowersList]) _ _, fun hd hin => ?_⟩
  have hin' := hin a (by simp [Term.refs])
  obtain ⟨c, hc, hcs, -, ⟨r, h1, h2, -⟩, h3⟩ := c27_pow (name a) (shape a) p inp (by
    intro i hi
    have := hd _ (unravel_inBounds hi)
    rw [entryAt, ravel_unravel hi] at this
    rwa [hin'])
  rw [hc] at hk
  cases hk
  refine pow_good hcs h1 (fun idx _ => ?_) h3
  rw [h2, hin']
  rfl

theorem correct_neg (a : Ref) : (Term.neg a).Correct name shape val inp := by
  intro B hB
  rw [Term.build] at hB
  obtain ⟨o, k, ho, hk, rfl⟩ := builtPow_ok hB
  have hin0 : ∀ n ∈ o.inNames, ∃ u ∈ (Term.neg a).refs, n = name u ∧ shape u = o.shape := by
    unfold buildNeg buildMul at ho
    cases ho
    simp [Term.refs]
  have hall : ∀ u ∈ (Term.neg a).refs,
      name u ∈ (o.inNames.zip (getPowersList o.powers o.inNames)).map Prod.fst := by
    unfold buildNeg buildMul at ho
    cases ho
    simp [Term.refs, getPowersList]
  refine ⟨pow_wired hk hin0 hall _ _, fun hd hin => ?_⟩
  have hin' := hin a (by simp [Term.refs])
  have hsh : o.shape = shape a := by
    unfold buildNeg buildMul at ho
    cases ho
    rfl
  obtain ⟨o', c, r, ho', hc, hcs, h1, h2, h3⟩ := c27_neg (name a) (shape a) inp
  rw [ho'] at ho
  obtain rfl := Option.some.inj (Except.ok.inj ho)
  rw [hc] at hk
  cases hk
  show Built.Good _ (shape a) _ _
  rw [hsh]
  refine pow_good hcs h1 (fun idx _ => ?_) h3
  rw [h2, hin']
  rfl

theorem correct_unary (f : Unary) (a : Ref) : (Term.unary f a).Correct name shape val inp := by
  intro B hB
  cases hB
  refine ⟨⟨by simp, by simp [Term.refs], by simp [Term.refs]⟩, fun hd hin => ?_⟩
  obtain ⟨hd1, hd2⟩ := hd
  have hin' := hin a (by simp [Term.refs])
  obtain ⟨h1, h2, h3⟩ := c30_partials_partial f (name a) (shape a) inp (by
    intro i hi
    have := hd1 _ (unravel_inBounds hi)
    rw [entryAt, ravel_unravel hi] at this
    rwa [hin'])
  have : ∃ p, f.partials (name a) (shape a) inp = .ok p := by
    by_cases hf : f = .arcsin ∨ f = .sech
    · exact h2 (hd2 hf)
    · push Not at hf
      exact h1 hf.1 hf.2
  obtain ⟨p, hp⟩ := this
  have hp' : (Except.map (fun p (_ : String) => p) (f.partials (name a) (shape a) inp) :
      Except PyErr (String → Coo)) = .ok fun _ => p := by rw [hp]; rfl
  refine ⟨rfl, ⟨_, rfl, fun idx _ => ?_⟩, ⟨fun _ => p, hp'⟩, ?_⟩
  · show f.compute (name a) inp _ = _
    rw [c30_values, hin']
    rfl
  · have := h3 p hp
    show ExactPartials _ _ _ (Built.coo _ _) _
    unfold Built.coo
    simp only [hp']
    exact this

end

end OM
