import Verif.Props.TermsAxes

/-! # Which calls are accepted -/

namespace OM
open Spec

section
variable (name : Ref → String) (shape : Ref → List Nat)

/-- Operands of an arithmetic operator: two different expressions of equal shape, an expression and a constant, a
number and an expression. -/
def Arg.Fit : Arg → Arg → Prop
  | .ref u, .ref v => name u ≠ name v ∧ shape u = shape v
  | .ref _, .const _ => True
  | .const (.num _), .ref _ => True
  | _, _ => False

/-- Operands that a call accepts. -/
def Term.Fits (c : Term) : Prop :=
  match c with
  | .add a b | .sub a b | .mul a b => Arg.Fit name shape a b
  | .div a b => Arg.Fit name shape a b ∧ (∀ x, b = .const (.num x) → x ≠ 0) ∧
      ∀ u x, a = .ref u → b = .const (.arr x) → prodShape (shape u) = 1 ∧ x 0 ≠ 0
  | .pow _ _ | .neg _ | .unary _ _ | .transpose _ => True
  | .sum as axes => as ≠ [] ∧ (as.map name).Nodup ∧ (∀ a ∈ as, ∀ b ∈ as, shape a = shape b) ∧
      ∀ a ∈ as, ∀ ax, axes = some ax → ∃ l, NamesAxes (shape a).length ax l
  | .average as axes => as ≠ [] ∧ (as.map name).Nodup ∧ (∀ a ∈ as, ∀ b ∈ as, shape a = shape b) ∧
      ∀ a ∈ as, ∀ ax, axes = some ax → ax.length ≤ 1 ∧ ∃ l, NamesAxes (shape a).length ax l
  | .matmat a b => name a ≠ name b ∧ ∃ m n, MatrixLike (shape a) m n ∧ (shape b = [n] ∨ ∃ p, shape b = [n, p])
  | .matvec a b => name a ≠ name b ∧ ∃ m n, MatrixLike (shape a) m n ∧ shape b = [n]
  | .outer a b => name a ≠ name b ∧ (shape a).length + (shape b).length ≤ 26
  | .dot a b axis => name a ≠ name b ∧ shape a = shape b ∧ ((shape a).length = 1 ∨
      ∃ x k, axis = some x ∧ NamesAxis (shape a).length x k ∧ (shape a)[k]? = some 3)
  | .inner a b axes => name a ≠ name b ∧ (shape a = shape b ∧ (shape a).length = 1 ∨
      ¬ ((shape a).length = 1 ∧ (shape b).length = 1) ∧ ∃ a0 a1 l0 l1, axes = some (a0, a1) ∧
        NamesAxes (shape a).length a0 l0 ∧ NamesAxes (shape b).length a1 l1 ∧
        l0.map (fun k => (shape a)[k]?) = l1.map fun k => (shape b)[k]?)
  | .cross a b axis => name a ≠ name b ∧ shape a = shape b ∧ (shape a).length ≤ 11 ∧
      ∃ k : Nat, (shape a)[k]? = some 3 ∧
        (axis = k ∨ axis = (k : Int) - (shape a).length ∧ axis ≤ -2 ∧ 11 ≤ ((shape a).length : Int) - axis)
  | .rotmat _ axis => axis = "x" ∨ axis = "y" ∨ axis = "z"
  | .reorder a lhs rhs => rhs.Nodup ∧ rhs.length = (shape a).length ∧ ∀ ch ∈ rhs, ch ∈ lhs
  | .reshape a s => prodShape s = prodShape (shape a)
  | .expand a _ none => shape a = [1]
  | .expand a s (some (lhs, rhs)) => shape a = [1] ∨ s.length ≤ 10 ∧
      shape a = (rhs.filter fun ch => decide (ch ∈ lhs)).map fun ch => s.getD (rhs.idxOf ch) 0
  | .extremum _ as axis _ =>
    match as, axis with
    | [a], some x => ∃ k, NamesAxis (shape a).length x k
    | _, some _ => False
    | as, none => as ≠ [] ∧ (as.map name).Nodup ∧ ∀ a ∈ as, ∀ b ∈ as, shape a = shape b
  | .pnorm a p axes => 0 < p ∧ 2 ∣ p ∧ ∀ ax, axes = some ax → ∃ l, NamesAxes (shape a).length ax l
  | .einsum as labels out _ => EinsumFits shape as labels out

/-- Subscripts are letters: for `reorder_axes` one for each axis of the operand, for `expand` one for each axis of the
result, none twice. In an einsum no axis has length zero. -/
def Term.Plain (c : Term) : Prop :=
  match c with
  | .reorder a lhs rhs => Letters lhs ∧ Letters rhs ∧ lhs.length = (shape a).length
  | .expand a s (some (lhs, rhs)) => Letters lhs ∧ Letters rhs ∧
      (shape a ≠ [1] → rhs.Nodup ∧ rhs.length = s.length)
  | .einsum as labels out _ => labels ≠ [] ∧ (∀ l ∈ labels, Alpha l) ∧ Alpha out ∧ ∀ a ∈ as, ∀ n ∈ shape a, 0 < n
  | _ => True

variable {name shape}

theorem builtOf_iff {β : Type} {c : Except PyErr β} {setup : β → Except PyErr Unit} {built : β → Built} :
    (∃ b, builtOf c setup built = .ok b) ↔ ∃ x, c = .ok x ∧ setup x = .ok () := by
  constructor
  · rintro ⟨b, h⟩
    obtain ⟨x, h1, h2, -⟩ := builtOf_ok h
    exact ⟨x, h1, h2⟩
  · rintro ⟨x, rfl, h⟩
    exact ⟨built x, by simp [builtOf, h]⟩

theorem builtLin_iff {c : Except PyErr (Option LinOpts)} :
    (∃ b, builtLin c = .ok b) ↔
      ∃ o, c = .ok (some o) ∧ ((o.inNames.zip (getScalarsList o.coeffs o.inNames)).map Prod.fst).Nodup := by
  constructor
  · rintro ⟨b, h⟩
    obtain ⟨o, k, h1, h2, -⟩ := builtLin_ok h
    refine ⟨o, h1, ?_⟩
    unfold LinOpts.setup at h2
    simp only at h2
    split at h2
    · assumption
    · cases h2
  · rintro ⟨o, rfl, h⟩
    simp only [builtLin, LinOpts.setup, if_pos h]
    exact ⟨_, rfl⟩

theorem builtPow_iff {c : Except PyErr (Option PowOpts)} :
    (∃ b, builtPow c = .ok b) ↔ ∃ o, c = .ok (some o) ∧ o.inNames.Nodup := by
  constructor
  · rintro ⟨b, h⟩
    obtain ⟨o, k, h1, h2, -⟩ := builtPow_ok h
    refine ⟨o, h1, ?_⟩
    unfold PowOpts.setup at h2
    split at h2
    · assumption
    · cases h2
  · rintro ⟨o, rfl, h⟩
    simp only [builtPow, PowOpts.setup, if_pos h]
    exact ⟨_, rfl⟩

theorem setupRed_iff {as : List Ref} {axes : Option (List Int)} :
    (∃ c, setupRed name shape as axes = .ok c) ↔
      as ≠ [] ∧ (as.map name).Nodup ∧ (∀ a ∈ as, ∀ b ∈ as, shape a = shape b) ∧
      ∀ a ∈ as, ∀ ax, axes = some ax → ∃ l, NamesAxes (shape a).length ax l := by
  constructor
  · rintro ⟨c, h⟩
    obtain ⟨h1, h2, h3⟩ := setupRed_ok name shape h
    have hf := redFacts name shape h
    refine ⟨hf.ne, by rw [← hf.names]; exact hf.nodup, h1, fun a ha ax hax => ?_⟩
    obtain ⟨-, n, s, hl, hx⟩ := (c35_accepted _ _).1 ⟨c, h2, h3⟩
    obtain ⟨b, hb, he⟩ := List.mem_map.1 (List.mem_of_getLast? hl)
    have hs : shape b = s := (Prod.ext_iff.1 he).2
    rw [h1 a ha b hb, hs]
    exact hx ax hax
  · rintro ⟨hne, hnd, hs, hax⟩
    have hne' : (as.map fun u => (name u, shape u)) ≠ [] := by simpa using hne
    obtain ⟨⟨n, s⟩, hlast⟩ : ∃ p, (as.map fun u => (name u, shape u)).getLast? = some p :=
      ⟨_, List.getLast?_eq_some_getLast hne'⟩
    obtain ⟨b, hb, he⟩ := List.mem_map.1 (List.mem_of_getLast? hlast)
    have hsb : shape b = s := (Prod.ext_iff.1 he).2
    obtain ⟨c, h1, h2⟩ := (c35_accepted (as.map fun u => (name u, shape u)) axes).2
      ⟨by simpa [List.map_map, Function.comp_def] using hnd, n, s, hlast, fun ax h => by
        rw [← hsb]; exact hax b hb ax h⟩
    refine ⟨c, ?_⟩
    unfold setupRed
    rw [if_neg (by push Not; exact hs), h1]
    simp only [h2]

theorem accepts_sum (as : List Ref) (axes : Option (List Int)) :
    (∃ B, (Term.sum as axes).build name shape = .ok B) ↔ (Term.sum as axes).Fits name shape := by
  refine Iff.trans ?_ setupRed_iff
  simp only [Term.build]
  cases setupRed name shape as axes <;> simp

theorem accepts_average (as : List Ref) (axes : Option (List Int)) :
    (∃ B, (Term.average as axes).build name shape = .ok B) ↔ (Term.average as axes).Fits name shape := by
  have key : ∀ c, setupRed name shape as axes = .ok c →
      ((∃ w, c.averageWeight = .ok w) ↔ ∀ ax, axes = some ax → ax.length ≤ 1) := by
    intro c h
    have hf := redFacts name shape h
    obtain ⟨hne, -, hs, hax⟩ := setupRed_iff.1 ⟨c, h⟩
    cases axes with
    | none =>
      refine iff_of_true (c35_average_accepts c (Or.inl (hf.none rfl))) ?_
      intro ax h; cases h
    | some ax =>
      have hca := hf.some ax rfl
      obtain ⟨a, ha⟩ := List.exists_mem_of_ne_nil as hne
      obtain ⟨l, hl⟩ := hax a ha ax rfl
      rw [hf.shapes a ha] at hl
      rw [axesOf_names hl] at hca
      have hlen := hl.2.length_eq
      constructor
      · rintro ⟨w, hw⟩ ax' he
        cases he
        rw [hlen]
        unfold Red.averageWeight at hw
        rw [hca] at hw
        match l with
        | [] => simp
        | [_] => simp
        | _ :: _ :: _ => simp [entriesAveraged] at hw
      · intro h1
        have h1 := h1 ax rfl
        rw [hlen] at h1
        match l, hl with
        | [], _ =>
          unfold Red.averageWeight
          rw [hca]
          simp only [entriesAveraged]
          split <;> exact ⟨_, rfl⟩
        | [k], hl =>
          refine c35_average_accepts c (Or.inr ⟨k, hca, ?_⟩)
          cases hl.2 with
          | cons h _ => exact h.1
        | _ :: _ :: _, _ => simp at h1
  constructor
  · rintro ⟨B, h⟩
    simp only [Term.build] at h
    cases hr : setupRed name shape as axes with
    | error e => rw [hr] at h; cases h
    | ok c =>
      rw [hr] at h
      simp only at h
      obtain ⟨h1, h2, h3, h4⟩ := setupRed_iff.1 ⟨c, hr⟩
      have hw : ∃ w, c.averageWeight = .ok w := by
        cases hw : c.averageWeight with
        | error e => rw [hw] at h; cases h
        | ok w => exact ⟨w, rfl⟩
      exact ⟨h1, h2, h3, fun a ha ax hax => ⟨(key c hr).1 hw ax hax, h4 a ha ax hax⟩⟩
  · rintro ⟨h1, h2, h3, h4⟩
    obtain ⟨c, hr⟩ := setupRed_iff.2 ⟨h1, h2, h3, fun a ha ax hax => (h4 a ha ax hax).2⟩
    obtain ⟨a, ha⟩ := List.exists_mem_of_ne_nil as h1
    obtain ⟨w, hw⟩ := (key c hr).2 fun ax hax => (h4 a ha ax hax).1
    simp only [Term.build, hr, hw]
    exact ⟨_, rfl⟩

theorem accepts_extremum (lower : Bool) (as : List Ref) (axis : Option Int) (rho : ℝ) :
    (∃ B, (Term.extremum lower as axis rho).build name shape = .ok B) ↔
      (Term.extremum lower as axis rho).Fits name shape := by
  simp only [Term.build]
  rw [builtOf_iff]
  match as, axis with
  | [], none => simp [stdExtremum, Term.Fits]
  | [], some x => simp [stdExtremum, Term.Fits]
  | [a], none =>
    simp only [List.map_cons, List.map_nil, stdExtremum, Term.Fits]
    exact iff_of_true ⟨_, rfl, rfl⟩ (by simp)
  | [a], some x =>
    simp only [List.map_cons, List.map_nil, stdExtremum, Term.Fits]
    cases hk : normAxis (shape a).length x with
    | none =>
      refine iff_of_false (by rintro ⟨c, h, -⟩; cases h) ?_
      rintro ⟨k, h⟩
      rw [normAxis_iff.2 h] at hk
      cases hk
    | some k => exact iff_of_true ⟨_, rfl, rfl⟩ ⟨k, normAxis_iff.1 hk⟩
  | a :: b :: l, some x => simp [stdExtremum, Term.Fits]
  | a :: b :: l, none =>
    simp only [List.map_cons, stdExtremum, Term.Fits]
    rw [if_neg (by simp)]
    constructor
    · rintro ⟨c, h1, h2⟩
      split at h1
      · rename_i hs
        cases h1
        have h2 : Elem.setup _ = .ok () := h2
        unfold Elem.setup at h2
        split at h2
        · rename_i hnd
          have hs' : ∀ v ∈ a :: b :: l, shape v = shape a := by
            intro v hv
            rcases List.mem_cons.1 hv with rfl | hv
            · rfl
            · exact hs (name v, shape v) (List.mem_map.2 (⟨v, hv, rfl⟩ : ∃ u ∈ b :: l, (name u, shape u) = _))
          refine ⟨by simp, by simpa [List.map_map, Function.comp_def] using hnd, fun u hu v hv => ?_⟩
          rw [hs' u hu, hs' v hv]
        · cases h2
      · cases h1
    · rintro ⟨-, hnd, hs⟩
      rw [if_pos]
      · refine ⟨_, rfl, ?_⟩
        show Elem.setup _ = .ok ()
        unfold Elem.setup
        rw [if_pos]
        simpa [List.map_map, Function.comp_def] using hnd
      · intro p hp
        obtain ⟨v, hv, rfl⟩ := List.mem_map.1 (show p ∈ (b :: l).map fun u => (name u, shape u) from hp)
        exact hs v (List.mem_cons_of_mem _ hv) a (by simp)

theorem accepts_div (a b : Arg) :
    (∃ B, (Term.div a b).build name shape = .ok B) ↔ (Term.div a b).Fits name shape := by
  simp only [Term.build]
  rw [builtPow_iff]
  match a, b with
  | .ref u, .ref v =>
    simp only [Arg.operand, pyOperator, buildDiv, Term.Fits, Arg.Fit]
    by_cases h : shape u = shape v <;> simp [h]
  | .ref u, .const (.num x) =>
    simp only [Arg.operand, pyOperator, buildDiv, Term.Fits, Arg.Fit]
    by_cases h : x = 0 <;> simp [h]
  | .ref u, .const (.arr x) =>
    simp only [Arg.operand, pyOperator, buildDiv, Term.Fits, Arg.Fit]
    by_cases h : prodShape (shape u) = 1 <;> by_cases h' : x 0 = 0 <;> simp [h, h']
  | .const (.num x), .ref u => simp [Arg.operand, pyOperator, buildDiv, Term.Fits, Arg.Fit]
  | .const (.num x), .const (.num y) => simp [Arg.operand, pyOperator, buildDiv, Term.Fits, Arg.Fit]
  | .const (.num x), .const (.arr y) => simp [Arg.operand, pyOperator, buildDiv, Term.Fits, Arg.Fit]
  | .const (.arr x), .ref u => simp [Arg.operand, pyOperator, Term.Fits, Arg.Fit]
  | .const (.arr x), .const (.num y) => simp [Arg.operand, pyOperator, Term.Fits, Arg.Fit]
  | .const (.arr x), .const (.arr y) => simp [Arg.operand, pyOperator, Term.Fits, Arg.Fit]

theorem accepts_arith {a b : Arg} :
    ((∃ B, (Term.add a b).build name shape = .ok B) ↔ Arg.Fit name shape a b) ∧
    ((∃ B, (Term.sub a b).build name shape = .ok B) ↔ Arg.Fit name shape a b) ∧
    ((∃ B, (Term.mul a b).build name shape = .ok B) ↔ Arg.Fit name shape a b) := by
  simp only [Term.build]
  rw [builtLin_iff, builtLin_iff, builtPow_iff]
  match a, b with
  | .ref u, .ref v =>
    simp only [Arg.operand, pyOperator, buildAdd, buildSub, buildMul, Arg.Fit]
    by_cases h : shape u = shape v <;> simp [h, getScalarsList, List.replicate]
  | .ref u, .const x =>
    simp [Arg.operand, pyOperator, buildAdd, buildSub, buildMul, Arg.Fit, getScalarsList, List.replicate]
  | .const (.num x), .ref u =>
    simp [Arg.operand, pyOperator, buildAdd, buildSub, buildMul, Arg.Fit, getScalarsList, List.replicate]
  | .const (.num x), .const y => simp [Arg.operand, pyOperator, buildAdd, buildSub, buildMul, Arg.Fit]
  | .const (.arr x), .ref u => simp [Arg.operand, pyOperator, Arg.Fit]
  | .const (.arr x), .const y => simp [Arg.operand, pyOperator, Arg.Fit]

theorem accepts_expand {a : Ref} {s : List Nat} {indices : Option (List Char × List Char)}
    (hp : (Term.expand a s indices).Plain shape) :
    (∃ B, (Term.expand a s indices).build name shape = .ok B) ↔ (Term.expand a s indices).Fits name shape := by
  simp only [Term.build]
  rw [builtOf_iff]
  match indices, hp with
  | none, _ =>
    simp only [Option.map_none, stdExpand, Term.Fits]
    by_cases h : shape a = [1] <;> simp [h]
  | some (lhs, rhs), ⟨hl, hr, hn⟩ =>
    simp only [Option.map_some, Term.Fits, and_true]
    by_cases h : shape a = [1]
    · refine iff_of_true ?_ (Or.inl h)
      simp only [stdExpand]
      rw [show withArrow lhs rhs = arrow lhs rhs from rfl, splitArrow_nil hl hr]
      simp [h]
    · rw [or_iff_right h]
      exact c41_accepted hl hr (hn h).1 (hn h).2 h

theorem accepts_reorder {a : Ref} {lhs rhs : List Char} (hp : (Term.reorder a lhs rhs).Plain shape) :
    (∃ B, (Term.reorder a lhs rhs).build name shape = .ok B) ↔ (Term.reorder a lhs rhs).Fits name shape := by
  obtain ⟨hl, hr, hlen⟩ := hp
  simp only [Term.build]
  rw [builtOf_iff]
  simp only [Term.Fits, and_true]
  constructor
  · rintro ⟨c, hc⟩
    refine ⟨?_, ?_, ?_⟩ <;> by_contra hcon
    · obtain ⟨e, he⟩ := c42_refused (name := name a) (shape := shape a) hl hr (Or.inr (Or.inl hcon))
      have : stdReorder (name a) (shape a) (arrow lhs rhs) = .ok c := hc
      rw [he] at this; cases this
    · obtain ⟨e, he⟩ := c42_refused (name := name a) (shape := shape a) hl hr (Or.inl hcon)
      have : stdReorder (name a) (shape a) (arrow lhs rhs) = .ok c := hc
      rw [he] at this; cases this
    · push Not at hcon
      obtain ⟨e, he⟩ := c42_refused (name := name a) (shape := shape a) hl hr (Or.inr (Or.inr hcon))
      have : stdReorder (name a) (shape a) (arrow lhs rhs) = .ok c := hc
      rw [he] at this; cases this
  · rintro ⟨hnd, hrl, hsub⟩
    have hperm : rhs.Perm lhs := (List.subperm_of_subset hnd hsub).perm_of_length_le (by omega)
    exact ⟨_, stdReorder_accepts hl hlen (hperm.nodup_iff.1 hnd) hperm⟩

/-- **C69**, which calls are accepted and set up. -/
theorem c69_accepts {c : Term} (hp : c.Plain shape) :
    (∃ B, c.build name shape = .ok B) ↔ c.Fits name shape := by
  cases c with
  | add a b => exact accepts_arith.1
  | sub a b => exact accepts_arith.2.1
  | mul a b => exact accepts_arith.2.2
  | div a b => exact accepts_div a b
  | pow a p =>
    simp only [Term.build]
    rw [builtPow_iff]
    exact iff_of_true ⟨_, rfl, by simp [buildPow]⟩ trivial
  | neg a =>
    simp only [Term.build]
    rw [builtPow_iff]
    exact iff_of_true ⟨_, rfl, by simp⟩ trivial
  | unary f a => exact iff_of_true ⟨_, rfl⟩ trivial
  | sum as axes => exact accepts_sum as axes
  | average as axes => exact accepts_average as axes
  | matmat a b =>
    simp only [Term.build]
    rw [builtOf_iff]
    exact (c36_accepted _ _ _ _).1
  | matvec a b =>
    simp only [Term.build]
    rw [builtOf_iff]
    exact (c36_accepted _ _ _ _).2
  | outer a b =>
    simp only [Term.build]
    rw [builtOf_iff]
    exact c37_accepted _ _ _ _
  | dot a b axis =>
    simp only [Term.build]
    rw [builtOf_iff]
    obtain ⟨h1, h2⟩ := c38_dot_accepted (name a) (name b) (shape a) (shape b) axis
    simp only [Term.Fits]
    constructor
    · rintro ⟨c | c, hc, hs⟩
      · obtain ⟨g1, g2, g3⟩ := h1.1 ⟨c, hc, hs⟩
        exact ⟨g1, g2, Or.inl g3⟩
      · obtain ⟨g1, g2, -, g3⟩ := h2.1 ⟨c, hc, hs⟩
        exact ⟨g1, g2, Or.inr g3⟩
    · rintro ⟨g1, g2, g3⟩
      by_cases hl : (shape a).length = 1
      · obtain ⟨c, hc, hs⟩ := h1.2 ⟨g1, g2, hl⟩
        exact ⟨.inl c, hc, hs⟩
      · obtain ⟨c, hc, hs⟩ := h2.2 ⟨g1, g2, hl, g3.resolve_left hl⟩
        exact ⟨.inr c, hc, hs⟩
  | inner a b axes =>
    simp only [Term.build]
    rw [builtOf_iff]
    obtain ⟨h1, h2⟩ := c38_inner_accepted (name a) (name b) (shape a) (shape b) axes
    simp only [Term.Fits]
    constructor
    · rintro ⟨c | c, hc, hs⟩
      · obtain ⟨g1, g2, g3⟩ := h1.1 ⟨c, hc, hs⟩
        exact ⟨g1, Or.inl ⟨g2, g3⟩⟩
      · obtain ⟨g1, g2⟩ := h2.1 ⟨c, hc, hs⟩
        exact ⟨g1, Or.inr g2⟩
    · rintro ⟨g1, ⟨g2, g3⟩ | g2⟩
      · obtain ⟨c, hc, hs⟩ := h1.2 ⟨g1, g2, g3⟩
        exact ⟨.inl c, hc, hs⟩
      · obtain ⟨c, hc, hs⟩ := h2.2 ⟨g1, g2⟩
        exact ⟨.inr c, hc, hs⟩
  | cross a b axis =>
    simp only [Term.build]
    rw [builtOf_iff]
    exact c39_accepted _ _ _ _ _
  | rotmat a axis =>
    simp only [Term.build]
    rw [builtOf_iff]
    simp only [stdRotmat, rotIdx, Term.Fits]
    by_cases h1 : axis = "x"
    · simp [h1]
    by_cases h2 : axis = "y"
    · simp [h2]
    by_cases h3 : axis = "z"
    · simp [h3]
    simp [h1, h2, h3]
  | transpose a =>
    simp only [Term.build]
    rw [builtOf_iff]
    exact iff_of_true ⟨_, rfl, rfl⟩ trivial
  | reorder a lhs rhs => exact accepts_reorder hp
  | reshape a s =>
    simp only [Term.build]
    rw [builtOf_iff]
    simp only [stdReshape, Term.Fits]
    by_cases h : prodShape s = prodShape (shape a) <;> simp [h]
  | expand a s indices => exact accepts_expand hp
  | extremum lower as axis rho => exact accepts_extremum lower as axis rho
  | pnorm a p axes =>
    simp only [Term.build]
    rw [builtOf_iff]
    simp only [Term.Fits, and_true]
    exact c34_accepts _ _ _ _
  | einsum as labels out sparse =>
    simp only [Term.build]
    rw [builtOf_iff]
    simp only [and_true]
    exact accepts_einsum hp.1 hp.2.1 hp.2.2.1 hp.2.2.2

theorem shape_of_defined {c : Term} (ha : c.Apart name) (hd : c.Defined shape fun _ _ => 0) {B : Built} (h : c.build name shape = .ok B) :
    B.shape = c.outShape shape :=
  ((c69_term name shape (fun _ _ => 0) (fun _ _ => 0) c B h).2 ha hd fun _ _ => rfl).shape

/-- **C69**, the shape of the result. -/
theorem c69_outShape {c : Term} (hp : c.Plain shape) {B : Built} (h : c.build name shape = .ok B) :
    B.shape = c.outShape shape := by
  cases c with
  | mul a b =>
    obtain ⟨o, k, ho, -, rfl⟩ := builtPow_ok h
    exact (arith_mul ho).eq
  | div a b =>
    obtain ⟨o, k, ho, -, rfl⟩ := builtPow_ok h
    exact (arith_div ho).eq
  | pow a p =>
    rw [Term.build] at h
    obtain ⟨o, k, ho, -, rfl⟩ := builtPow_ok h
    cases ho
    rfl
  | unary f a => cases h; rfl
  | average as axes =>
    simp only [Term.build] at h
    cases hr : setupRed name shape as axes with
    | error e => rw [hr] at h; cases h
    | ok c =>
      rw [hr] at h
      simp only at h
      split at h
      · cases h
      · cases h
        exact (redFacts name shape hr).outShape.trans (by cases axes <;> rfl)
  | inner a b axes =>
    rw [Term.build] at h
    obtain ⟨c, hc, hset, rfl⟩ := builtOf_ok h
    cases c with
    | inl c =>
      obtain ⟨⟨n, hsa, hsb, -⟩, -⟩ := c38_inner_value.1 c hc hset fun _ _ => 0
      show [1] = _
      simp [Term.outShape, hsa, hsb]
    | inr c =>
      have hl := ((c38_inner_accepted _ _ _ _ _).2.1 ⟨c, hc, hset⟩).2.1
      obtain ⟨a0, a1, l0, l1, rfl, hn0, hn1, ho, -⟩ := c38_inner_value.2 c hc fun _ _ => 0
      refine ho.trans ?_
      simp only [Term.outShape, if_neg hl, axesOf_names hn0, axesOf_names hn1]
  | expand a s indices =>
    rw [Term.build] at h
    obtain ⟨c, hc, -, rfl⟩ := builtOf_ok h
    show c.shape = s
    unfold stdExpand at hc
    split at hc
    · split at hc <;> cases hc
      rfl
    · split at hc
      · split at hc
        · cases hc; rfl
        · split at hc
          · cases hc
          · split at hc <;> cases hc
            rfl
      · cases hc
  | extremum lower as axis rho =>
    rw [Term.build] at h
    obtain ⟨c, hc, -, rfl⟩ := builtOf_ok h
    match as, axis with
    | [], _ => cases axis <;> cases hc
    | [a], none => cases hc; rfl
    | [a], some x =>
      simp only [List.map_cons, List.map_nil, stdExtremum] at hc
      split at hc
      · cases hc
      · rename_i k hk
        cases hc
        simp only [builtStateful]
        simp [Ks.outShape, Term.outShape, axisOf_names (normAxis_iff.1 hk), npDelete_single]
    | a :: b :: l, some x => cases hc
    | a :: b :: l, none =>
      simp only [List.map_cons, stdExtremum] at hc
      rw [if_neg (by simp)] at hc
      split at hc
      · cases hc; rfl
      · cases hc
  | pnorm a p axes =>
    rw [Term.build] at h
    obtain ⟨c, hc, -, rfl⟩ := builtOf_ok h
    obtain ⟨-, n2, -, -, -, hnone, hsome⟩ := c34_arguments hc
    show c.outShape = _
    unfold Pnorm.outShape
    cases axes with
    | none => rw [hnone rfl]; rfl
    | some ax =>
      obtain ⟨l, hl, hcl⟩ := hsome ax rfl
      rw [hcl, n2]
      simp [Term.outShape, axesOf_names hl]
  | cross a b axis =>
    rw [Term.build] at h
    obtain ⟨c, hc, -, rfl⟩ := builtOf_ok h
    obtain ⟨-, -, k, -, ⟨-, rfl⟩ | ⟨-, -, -, rfl⟩⟩ := stdCross_iff.1 hc <;> rfl
  | reorder a lhs rhs => exact shape_of_defined (by exact trivial) (by exact hp) h
  | einsum as labels out sparse =>
    rw [Term.build] at h
    obtain ⟨c, hc, -, rfl⟩ := builtOf_ok h
    exact c44_shape hp.1 hp.2.1 hp.2.2.1 ((stdEinsum_ok hp.1 hp.2.1 hp.2.2.1 hc).lengths_labels hp.2.2.2) hc
  | _ => exact shape_of_defined (by exact trivial) (by exact trivial) h

/-- A matrix times a vector, at some arrays: the component is set up, and the second entry is that of the product. -/
example : ∃ B r, (Term.matvec 1 2).build (fun u => if u = 1 then "A" else "v") (fun u => if u = 1 then [2, 3] else [3]) =
    .ok B ∧ B.shape = [2] ∧ B.compute (fun n i => if n = "A" then (i : ℝ) else 1) = .ok r ∧ r 1 = 12 := by
  have hp : (Term.matvec 1 2).Plain fun u => if u = 1 then [2, 3] else [3] := trivial
  obtain ⟨B, hB⟩ := (c69_accepts (name := fun u => if u = 1 then "A" else "v") hp).2
    ⟨by decide, 2, 3, .inl rfl, rfl⟩
  obtain ⟨hs, ⟨r, hr, hv⟩, -, -⟩ := (c69_term _ _ (fun u i => if u = 1 then (i : ℝ) else 1)
    (fun n i => if n = "A" then (i : ℝ) else 1) _ B hB).2 trivial trivial (by
      intro u hu
      rcases List.mem_cons.1 hu with rfl | hu
      · funext i; simp
      · obtain rfl := List.mem_singleton.1 hu
        funext i
        simp)
  refine ⟨B, r, hB, hs, hr, ?_⟩
  have := hv [1] (by simp [Term.outShape, InBounds])
  rw [show ravel _ [1] = 1 from rfl] at this
  rw [this]
  simp [Term.entry, entryAt, Finset.sum_range_succ, ravel, prodShape]
  norm_num

/-- A matrix product with sparse partials: accepted, and the entry in row 1 and column 2 is the sum of products. -/
example : ∃ B r, (Term.einsum [1, 2] ["ij".toList, "jk".toList] "ik".toList true).build
      (fun u => if u = 1 then "A" else "B") (fun u => if u = 1 then [2, 2] else [2, 3]) = .ok B ∧ B.shape = [2, 3] ∧
    B.compute (fun n i => if n = "A" then (i : ℝ) else i ^ 2) = .ok r ∧ r 5 = 83 := by
  have hp : (Term.einsum [1, 2] ["ij".toList, "jk".toList] "ik".toList true).Plain
      fun u => if u = 1 then [2, 2] else [2, 3] := by
    refine ⟨by decide, by decide, by decide, by decide⟩
  obtain ⟨B, hB⟩ := (c69_accepts (name := fun u => if u = 1 then "A" else "B") hp).2
    ⟨by simp, by decide, by decide, by decide, by decide⟩
  obtain ⟨hs, ⟨r, hr, hv⟩, -, -⟩ := (c69_term _ _ (fun u i => if u = 1 then (i : ℝ) else i ^ 2)
    (fun n i => if n = "A" then (i : ℝ) else i ^ 2) _ B hB).2
    (by intro u hu v hv; revert u v; decide)
    ⟨hp.1, hp.2.1, hp.2.2.1, hp.2.2.2, ⟨[1, 2], [], rfl, by decide, by decide⟩, by decide,
      fun _ => ⟨by decide, [1, 2], [], [], rfl, by decide, by decide, by unfold SharesLabels; decide, by simp⟩⟩ (by
      intro u hu
      rcases List.mem_cons.1 hu with rfl | hu
      · funext i; simp
      · obtain rfl := List.mem_singleton.1 hu
        funext i
        simp)
  have ho : (Term.einsum [1, 2] ["ij".toList, "jk".toList] "ik".toList true).outShape
      (fun u => if u = 1 then [2, 2] else [2, 3]) = [2, 3] := by decide
  rw [ho] at hs hv
  refine ⟨B, r, hB, hs, hr, ?_⟩
  have := hv [1, 2] (by simp [InBounds])
  rw [show ravel _ [1, 2] = 5 from rfl] at this
  rw [this]
  have h1 : summed ["ij".toList, "jk".toList] "ik".toList = ['j'] := by decide
  have h2 : labelLength (fun u => if u = 1 then [2, 2] else [2, 3]) [1, 2] ["ij".toList, "jk".toList] 'j' = 2 := by decide
  simp only [Term.entry, h1, List.map_cons, List.map_nil, h2]
  rw [show indices [2] = [[0], [1]] by decide]
  simp [entryAt, value, ravel, prodShape, List.lookup]
  norm_num

end

end OM
