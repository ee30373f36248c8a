import Verif.Props.Arith
import Verif.Props.Axes
import Verif.Props.Getitem
import Verif.Props.Operands
import Verif.Props.Einsum

/-!
# Which exceptions refused calls raise

Further parts of C22, C26, C27, C29, C41, C44 and C66.
-/

namespace OM
open Spec

/-- **C26**, operands of different shapes: `ValueError`. -/
theorem c26_exceptions {n m : String} {s t : List Nat} (h : s ≠ t) :
    pyOperator buildAdd (.var n s) (.var m t) = .error .valueError ∧
    pyOperator buildSub (.var n s) (.var m t) = .error .valueError :=
  ⟨if_neg h, if_neg h⟩

/-- **C27**, operands of different shapes, and division by zero: `ValueError`. -/
theorem c27_exceptions {n m : String} {s t : List Nat} (h : s ≠ t) :
    pyOperator buildMul (.var n s) (.var m t) = .error .valueError ∧
    pyOperator buildDiv (.var n s) (.var m t) = .error .valueError ∧
    pyOperator buildDiv (.var n s) (.const (.num 0)) = .error .valueError :=
  ⟨if_neg h, if_neg h, if_pos rfl⟩

example : pyOperator buildSub (.var "x" [2]) (.var "y" [3]) = .error .valueError :=
  (c26_exceptions (by decide)).2

/-- **C29**, an input with a zero and an array of exponents with rows of one element (of any rank, vectors included): the
power is computed unless the first exponent, the only one used, is negative; then the program exits. -/
theorem c29_zero (n : String) (m : Nat) (ms : List Nat) (hms : prodShape ms = 1) (p : Nat → ℝ) (inp : String → Nat → ℝ)
    (hz : ∃ i < m + 1, inp n i = 0) :
    ∃ c, (buildPow n ((m + 1) :: ms) (.arr p)).setup = .ok c ∧
      (p 0 < 0 → c.compute inp = .error .systemExit) ∧
      (0 ≤ p 0 → c.compute inp = .ok fun i => inp n i ^ p 0) := by
  have main : ∀ q : Power, zeroCheck q = (if p 0 < 0 then some .systemExit else none) → (∀ i, q.at i = p 0) →
      (buildPow n ((m + 1) :: ms) (.arr p)).setup = .ok ⟨m + 1, [(n, q)], .num 1⟩ →
      ∃ c, (buildPow n ((m + 1) :: ms) (.arr p)).setup = .ok c ∧
        (p 0 < 0 → c.compute inp = .error .systemExit) ∧
        (0 ≤ p 0 → c.compute inp = .ok fun i => inp n i ^ p 0) := by
    intro q hq hat hs
    refine ⟨_, hs, fun h => ?_, fun h => ?_⟩
    · unfold Pow.compute
      simp only [List.foldlM]
      rw [if_pos hz, hq, if_pos h]
      rfl
    · unfold Pow.compute
      simp only [List.foldlM]
      rw [if_pos hz, hq, if_neg (not_lt.2 h)]
      show Except.ok _ = Except.ok _
      congr 1
      funext i
      simp [Const.at, hat]
  have hsz : prodShape ((m + 1) :: ms) = m + 1 := by
    unfold prodShape at hms ⊢
    rw [List.prod_cons, hms, mul_one]
  cases ms with
  | nil =>
    refine main (.num (p 0)) rfl (fun _ => rfl) ?_
    simp [buildPow, PowOpts.setup, getPowersList, List.range_succ_eq_map, hsz]
  | cons k ks =>
    refine main (.row (prodShape (k :: ks)) fun j => p (0 * prodShape (k :: ks) + j)) ?_ ?_ ?_
    · rw [zeroCheck, if_pos hms]
      simp
    · intro i
      simp [Power.at, hms, Nat.mod_one]
    · simp [buildPow, PowOpts.setup, getPowersList, List.range_succ_eq_map, hsz]

/-- With more columns and a zero in the input the evaluation raises `ValueError`: the comparison of a row with zero has no
truth value. -/
theorem c29_zero_rows (n : String) (m k : Nat) (ks : List Nat) (hk : prodShape (k :: ks) ≠ 1) (p : Nat → ℝ)
    (inp : String → Nat → ℝ) (hz : ∃ i < prodShape ((m + 1) :: k :: ks), inp n i = 0) :
    ∃ c, (buildPow n ((m + 1) :: k :: ks) (.arr p)).setup = .ok c ∧ c.compute inp = .error .valueError := by
  have hzip : [n].zip (getPowersList (.array ((m + 1) :: k :: ks) p) [n]) =
      [(n, .row (prodShape (k :: ks)) fun j => p (0 * prodShape (k :: ks) + j))] := by
    simp only [getPowersList, List.range_succ_eq_map, List.map_cons, List.zip_cons_cons, List.zip_nil_left]
  refine ⟨⟨prodShape ((m + 1) :: k :: ks), [(n, .row (prodShape (k :: ks)) fun j => p (0 * prodShape (k :: ks) + j))],
    .num 1⟩, ?_, ?_⟩
  · unfold PowOpts.setup buildPow
    simp only
    rw [if_pos (by simp), hzip]
  · unfold Pow.compute
    simp only [List.foldlM]
    rw [if_pos hz]
    simp only [zeroCheck, if_neg hk]
    rfl

example : ∃ c, (buildPow "x" [2, 1] (.arr fun _ => 0)).setup = .ok c ∧
    c.compute (fun _ _ => 0) = .ok fun _ => 1 := by
  obtain ⟨c, h1, -, h2⟩ := c29_zero "x" 1 [1] rfl (fun _ => 0) (fun _ _ => 0) ⟨0, by omega, rfl⟩
  exact ⟨c, h1, by simpa using h2 le_rfl⟩

/-- **C41**: `IndexError` for more than ten axes, `ValueError` for lengths that differ. -/
theorem c41_exceptions {name : String} {inShape shape : List Nat} {a b : List Char} (ha : Letters a) (hb : Letters b)
    (hd : b.Nodup) (hl : b.length = shape.length) (hi : inShape ≠ [1]) :
    (10 < shape.length → stdExpand name inShape shape (some (arrow a b)) = .error .indexError) ∧
    (shape.length ≤ 10 → inShape ≠ (b.filter fun ch => decide (ch ∈ a)).map (fun ch => shape.getD (b.idxOf ch) 0) →
      stdExpand name inShape shape (some (arrow a b)) = .error .valueError) ∧
    stdExpand name inShape shape none = .error .valueError := by
  refine ⟨fun h => ?_, fun h h' => ?_, if_neg hi⟩
  · unfold stdExpand
    simp only
    rw [splitArrow_nil ha hb]
    simp only
    rw [if_neg hi, decomposeShape, if_pos h]
  · unfold stdExpand
    simp only
    rw [splitArrow_nil ha hb]
    simp only
    rw [if_neg hi, decomposeShape, if_neg (by omega)]
    simp only
    rw [if_pos]
    rw [npDelete_expand hd hl.symm]
    exact fun e => h' e.symm

/-- **C19**: a tuple with a slice at a position that is no axis raises `IndexError`, if the variable was read before. -/
theorem c19_exceptions {v : IVar} (hv : v.called = true) {es : List KeyItem} {j : Nat} {a b s : Option Int}
    (hj : v.shape.length ≤ j) (he : es[j]? = some (.slice a b s)) : (getItem v (.tuple es)).2 = .error .indexError := by
  have key : ∀ (es : List KeyItem) (shape : List Nat) (j : Nat), shape.length ≤ j → es[j]? = some (.slice a b s) →
      normItems shape es = .error .indexError := by
    intro es
    induction es with
    | nil => intro _ _ _ h; simp at h
    | cons e es ih =>
      intro shape j hj he
      cases shape with
      | nil =>
        cases e with
        | slice => rfl
        | int k =>
          cases j with
          | zero => simp at he
          | succ j => simp only [normItems]; rw [ih [] j (by simp) (by simpa using he)]; rfl
      | cons n ns =>
        cases j with
        | zero => simp at hj
        | succ j => simp only [normItems]; rw [ih ns j (by simpa using hj) (by simpa using he)]; rfl
  unfold getItem firstUse
  rw [if_pos hv]
  simp only [normKey, key es v.shape j hj he]

example : (getItem { IVar.new [3] [3] with called := true } (.tuple [.int 0, .slice none none none])).2 =
    .error .indexError :=
  c19_exceptions rfl (j := 1) (by decide) rfl

/-- **C22**: after a failed first use, every later use of a well-formed key raises `AttributeError`. -/
theorem c22_exceptions {shape valShape : List Nat} (key : Key) {e : PyErr}
    (h : npIndexShape valShape key.items = .error e) (key' : Key) {k : NKey} (hk : normKey shape key' = .ok k) :
    (getItem (getItem (IVar.new shape valShape) key).1 key').2 = .error .attributeError := by
  have hfu : firstUse (IVar.new shape valShape) key = (⟨shape, valShape, true, none, 0⟩, some e) := by
    show (match npIndexShape valShape key.items with
      | .error e => _
      | .ok _ => _) = _
    rw [h]
    rfl
  have h1 : (getItem (IVar.new shape valShape) key).1 = ⟨shape, valShape, true, none, 0⟩ := by
    unfold getItem
    rw [hfu]
  rw [h1]
  unfold getItem firstUse
  simp only [if_true, hk]

/-- **C66**: an input declared with a value of another shape than its own raises `ValueError`, unless the value is a
scalar. -/
theorem c66_exceptions {n : String} {s : List Nat} {v : NdArr} (h1 : v.shape ≠ [1]) (h2 : v.shape ≠ s) :
    InputDecl.initial ⟨n, some s, some v⟩ = .error .valueError := by
  unfold InputDecl.initial
  simp only
  rw [if_neg h1, if_neg h2]

/-- The shape looked up for the label `ch` is missing: the first list of subscripts with that label belongs to no
operand, or to one with too few axes. -/
def Spec.AxisMissing (operands : List (String × List Nat)) (ops : List (List Char)) (ch : Char) : Prop :=
  ∃ pre S post, ops = pre ++ S :: post ∧ (∀ o ∈ pre, ch ∉ o) ∧ ch ∈ S ∧
    ∀ p, operands[pre.length]? = some p → p.2.length ≤ S.idxOf ch

theorem firstAxis_error {ch : Char} {ops : List (List Char)} {shapes : List (List Nat)} {e : PyErr} :
    firstAxis ch ops shapes = .error e ↔ e = .indexError ∧ ∃ pre S post, ops = pre ++ S :: post ∧
      (∀ o ∈ pre, ch ∉ o) ∧ ch ∈ S ∧ ∀ s, shapes[pre.length]? = some s → s.length ≤ S.idxOf ch := by
  induction ops generalizing shapes with
  | nil => simp [firstAxis]
  | cons S ops ih =>
    rw [firstAxis.eq_def]
    simp only
    by_cases hc : ch ∈ S
    · rw [if_pos hc]
      have key : (∃ pre S' post, S :: ops = pre ++ S' :: post ∧ (∀ o ∈ pre, ch ∉ o) ∧ ch ∈ S' ∧
          ∀ s, shapes[pre.length]? = some s → s.length ≤ S'.idxOf ch) ↔
          ∀ s, shapes[0]? = some s → s.length ≤ S.idxOf ch := by
        constructor
        · rintro ⟨pre, S', post, h1, h2, _, h4⟩
          cases pre with
          | nil =>
            obtain ⟨rfl, rfl⟩ := List.cons.inj h1
            exact h4
          | cons o pre =>
            obtain ⟨rfl, _⟩ := List.cons.inj h1
            exact absurd hc (h2 _ (by simp))
        · exact fun h => ⟨[], S, ops, rfl, by simp, hc, h⟩
      rw [key]
      cases shapes with
      | nil => simp [eq_comm]
      | cons s shapes =>
        simp only [List.getElem?_cons_zero, Option.some.injEq, forall_eq']
        cases h : s[S.idxOf ch]? with
        | none => simpa [eq_comm] using fun _ => List.getElem?_eq_none_iff.1 h
        | some n =>
          have := (List.getElem?_eq_some_iff.1 h).1
          simp; omega
    · rw [if_neg hc, ih]
      refine and_congr_right fun _ => ⟨?_, ?_⟩
      · rintro ⟨pre, S', post, rfl, h2, h3, h4⟩
        refine ⟨S :: pre, S', post, rfl, ?_, h3, fun s hs => h4 s ?_⟩
        · rintro o ho
          rcases List.mem_cons.1 ho with rfl | ho
          · exact hc
          · exact h2 o ho
        · rw [List.getElem?_tail]; simpa using hs
      · rintro ⟨pre, S', post, h1, h2, h3, h4⟩
        cases pre with
        | nil =>
          obtain ⟨rfl, rfl⟩ := List.cons.inj h1
          exact absurd h3 hc
        | cons o pre =>
          obtain ⟨rfl, rfl⟩ := List.cons.inj h1
          refine ⟨pre, S', post, rfl, fun o ho => h2 o (by simp [ho]), h3, fun s hs => h4 s ?_⟩
          rw [List.getElem?_tail] at hs; simpa using hs

theorem firstAxis_missing {ch : Char} {ops : List (List Char)} {operands : List (String × List Nat)} {e : PyErr} :
    firstAxis ch ops (operands.map Prod.snd) = .error e ↔ e = .indexError ∧ AxisMissing operands ops ch := by
  rw [firstAxis_error]
  refine and_congr_right fun _ => ?_
  unfold AxisMissing
  refine exists_congr fun pre => exists_congr fun S => exists_congr fun post => ?_
  simp only [List.getElem?_map, Option.map_eq_some_iff, forall_exists_index, and_imp]
  refine and_congr_right fun _ => and_congr_right fun _ => and_congr_right fun _ => ?_
  exact ⟨fun h p hp => h p.2 p hp rfl, fun h s p hp he => he ▸ h p hp⟩

theorem mapM_error_iff {α β : Type} {f : α → Except PyErr β} {l : List α}
    (hf : ∀ a e, f a = .error e → e = .indexError) :
    ∀ e, l.mapM f = .error e ↔ e = .indexError ∧ ∃ a ∈ l, f a = .error .indexError := by
  induction l with
  | nil => simp [pure, Except.pure]
  | cons a l ih =>
    intro e
    rw [List.mapM_cons]
    cases h1 : f a with
    | error e' =>
      obtain rfl := hf a e' h1
      simp [bind, Except.bind, h1, eq_comm]
    | ok b =>
      cases h2 : l.mapM f with
      | error e' =>
        obtain ⟨rfl, x, hx, h3⟩ := (ih e').1 h2
        constructor
        · intro h
          cases h
          exact ⟨rfl, x, by simp [hx], h3⟩
        · rintro ⟨rfl, _⟩
          rfl
      | ok bs =>
        constructor
        · intro h; cases h
        · rintro ⟨rfl, x, hx, h3⟩
          rcases List.mem_cons.1 hx with rfl | hx
          · rw [h1] at h3; cases h3
          · have := (ih .indexError).2 ⟨rfl, x, hx, h3⟩
            rw [h2] at this; cases this

/-- **C44**, the exceptions (with dense partials): no subscripts at all, or a label of the result whose first place
names no axis, raise `IndexError`; whatever else is refused raises `ValueError`. -/
theorem c44_exceptions (operands : List (String × List Nat)) {ops : List (List Char)} {out : List Char}
    (hne : ops ≠ []) (ho : ∀ o ∈ ops, Alpha o) (hout : Alpha out) :
    stdEinsum operands [] = .error .indexError ∧
    ((∃ ch ∈ out, AxisMissing operands ops ch) → stdEinsum operands (subscripts ops out) = .error .indexError) ∧
    ((∀ ch ∈ out, ¬ AxisMissing operands ops ch) → ∀ e, stdEinsum operands (subscripts ops out) = .error e →
      e = .valueError) := by
  have hs : subscripts ops out ≠ [] := by simp [subscripts, arrow]
  have key : ∀ e, computeEinsumShape (ops ++ [out]) (operands.map Prod.snd) = .error e ↔
      e = .indexError ∧ ∃ ch ∈ out, AxisMissing operands ops ch := by
    intro e
    unfold computeEinsumShape
    simp only [List.getLastD_concat, List.dropLast_concat]
    split
    · rename_i h; subst h; simp
    · have := mapM_error_iff (f := fun ch => firstAxis ch ops (operands.map Prod.snd)) (l := out)
        (fun a e h => (firstAxis_missing.1 h).1) e
      rw [show (∃ ch ∈ out, AxisMissing operands ops ch) ↔
        ∃ a ∈ out, firstAxis a ops (operands.map Prod.snd) = .error .indexError from
        exists_congr fun a => and_congr_right fun _ => by rw [firstAxis_missing]; simp, ← this]
      split <;> rename_i h <;> rw [h] <;> simp
  refine ⟨rfl, fun h => ?_, fun h e he => ?_⟩
  · unfold stdEinsum
    rw [if_neg hs]
    simp only
    rw [einsumToList_subscripts hne ho hout, (key .indexError).2 ⟨rfl, h⟩]
  · unfold stdEinsum at he
    rw [if_neg hs] at he
    simp only at he
    rw [einsumToList_subscripts hne ho hout, npParse_subscripts hne ho hout] at he
    split at he
    · rename_i e' he'
      obtain ⟨_, ch, h1, h2⟩ := (key e').1 he'
      exact absurd h2 (h ch h1)
    · simp only at he
      split at he
      · exact (Except.error.inj he).symm
      · split at he
        · exact (Except.error.inj he).symm
        · split at he
          · exact (Except.error.inj he).symm
          · cases he

/-- `'i,j->j'` with one operand, and with a second operand without axes; a label that no operand has. -/
example (n : Nat) :
    stdEinsum [("x", [n])] (subscripts [['i'], ['j']] ['j']) = .error .indexError ∧
    stdEinsum [("x", [n]), ("y", [])] (subscripts [['i'], ['j']] ['j']) = .error .indexError ∧
    stdEinsum [("x", [n])] (subscripts [['i']] ['j']) = .error .valueError ∧
    stdEinsum [("x", [n])] (subscripts [['i'], ['j']] ['i']) = .error .valueError := by
  refine ⟨(c44_exceptions _ (by decide) (by decide) (by decide)).2.1
      ⟨'j', by decide, [['i']], ['j'], [], rfl, by decide, by decide, by simp⟩,
    (c44_exceptions _ (by decide) (by decide) (by decide)).2.1
      ⟨'j', by decide, [['i']], ['j'], [], rfl, by decide, by decide, by simp⟩, ?_, ?_⟩
  · obtain ⟨e, he⟩ := c44_refused (operands := [("x", [n])]) (ops := [['i']]) (out := ['j']) (by decide) (by decide)
      (by decide) (.inr (.inr ⟨'j', by decide, by decide⟩))
    rw [he, (c44_exceptions _ (by decide) (by decide) (by decide)).2.2 ?_ e he]
    rintro ch hc ⟨pre, S, post, h1, _, h3, _⟩
    obtain rfl := List.mem_singleton.1 hc
    have : S ∈ [['i']] := h1 ▸ by simp
    obtain rfl := List.mem_singleton.1 this
    exact absurd h3 (by decide)
  · obtain ⟨e, he⟩ := c44_refused (operands := [("x", [n])]) (ops := [['i'], ['j']]) (out := ['i']) (by decide)
      (by decide) (by decide) (.inl (by simp))
    rw [he, (c44_exceptions _ (by decide) (by decide) (by decide)).2.2 ?_ e he]
    rintro ch hc ⟨pre, S, post, h1, _, h3, h4⟩
    obtain rfl := List.mem_singleton.1 hc
    match pre, h1 with
    | [], h1 =>
      obtain ⟨rfl, _⟩ := List.cons.inj h1
      exact absurd (h4 _ rfl) (by simp)
    | [_], h1 =>
      obtain ⟨_, h1⟩ := List.cons.inj h1
      obtain ⟨rfl, _⟩ := List.cons.inj h1
      exact absurd h3 (by decide)
    | _ :: _ :: pre, h1 => simp at h1

end OM
