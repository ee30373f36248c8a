import Verif.Props.Cross
import Verif.Props.Extremum
import Verif.Props.IfElse
import Verif.Props.Inner
import Verif.Props.Pnorm
import Verif.Props.Product
import Verif.Props.Reduce

/-!
# Which exceptions refused calls raise, continued

Further parts of C31, C34 to C39 and C47.
-/

namespace OM
open Spec

theorem normAxis_none {rank : Nat} {a : Int} : normAxis rank a = none ↔ a < -rank ∨ (rank : Int) ≤ a := by
  unfold normAxis
  split_ifs with h1 h2
  · simp; omega
  · simp; omega
  · simp; omega

theorem normAxis_some {rank : Nat} {a : Int} {k : Nat} :
    normAxis rank a = some k ↔ k < rank ∧ (a = k ∨ a = (k : Int) - rank) := by
  unfold normAxis
  split_ifs with h1 h2
  · simp only [Option.some.injEq]; omega
  · simp only [Option.some.injEq]; omega
  · simp; omega

theorem mapM_normAxis_none {rank : Nat} {axes : List Int} :
    axes.mapM (normAxis rank) = none ↔ ∃ a ∈ axes, a < -rank ∨ (rank : Int) ≤ a := by
  induction axes with
  | nil => simp
  | cons a l ih =>
    rw [List.mapM_cons]
    cases h : normAxis rank a with
    | none => simpa [h] using Or.inl (normAxis_none.1 h)
    | some k =>
      have hk : ¬ (a < -rank ∨ (rank : Int) ≤ a) := fun hc => by rw [normAxis_none.2 hc] at h; cases h
      cases h' : l.mapM (normAxis rank) with
      | none =>
        obtain ⟨b, hb, hb'⟩ := ih.1 h'
        simpa [h, h'] using Or.inr ⟨b, hb, hb'⟩
      | some m =>
        rw [h'] at ih
        simp only [reduceCtorEq, false_iff] at ih
        simp only [Option.pure_def, Option.bind_eq_bind, Option.bind_some, reduceCtorEq, false_iff]
        rintro ⟨b, hb, hb'⟩
        rcases List.mem_cons.1 hb with rfl | hb
        · exact hk hb'
        · exact ih ⟨b, hb, hb'⟩

theorem mapM_normAxis {rank : Nat} {axes : List Int} {l : List Nat}
    (hl : List.Forall₂ (fun (a : Int) (k : Nat) => k < rank ∧ (a = k ∨ a = (k : Int) - rank)) axes l) :
    axes.mapM (normAxis rank) = some l := by
  induction hl with
  | nil => rfl
  | cons h _ ih => rw [List.mapM_cons, normAxis_some.2 h, ih]; rfl

/-- Axes that do not exist, and axes that are named twice. -/
theorem normAxes_exceptions {rank : Nat} {axes : List Int} :
    ((∃ a ∈ axes, a < -rank ∨ (rank : Int) ≤ a) → normAxes rank axes = .error .indexError) ∧
    ∀ l, List.Forall₂ (fun (a : Int) (k : Nat) => k < rank ∧ (a = k ∨ a = (k : Int) - rank)) axes l → ¬ l.Nodup →
      normAxes rank axes = .error .valueError := by
  refine ⟨fun h => ?_, fun l hl hnd => ?_⟩
  · unfold normAxes
    rw [mapM_normAxis_none.2 h]
  · unfold normAxes
    rw [mapM_normAxis hl]
    simp only
    rw [if_neg hnd]

/-- **C31**: `IndexError` for an axis that does not exist, `Exception` for no operands, for several operands and an axis,
and for operands of different shapes; `ValueError` by OpenMDAO for an operand that is given twice. -/
theorem c31_exceptions (lower : Bool) (rho : ℝ) {n m : String} {shape shape' : List Nat} :
    (∀ a : Int, a < -shape.length ∨ shape.length ≤ a → stdExtremum lower [(n, shape)] (some a) rho = .error .indexError) ∧
    (∀ axis, stdExtremum lower [] axis rho = .error .exception) ∧
    (∀ a ops, stdExtremum lower ((n, shape) :: (m, shape') :: ops) (some a) rho = .error .exception) ∧
    (∀ ops : List (String × List Nat), (∃ p ∈ ops, ∃ q ∈ ops, p.2 ≠ q.2) → ∀ axis,
      stdExtremum lower ops axis rho = .error .exception) ∧
    ∀ c : Elem, ¬ c.names.Nodup → c.setup = .error .valueError := by
  refine ⟨fun a ha => ?_, fun axis => by cases axis <;> rfl, fun a ops => rfl, ?_, fun c h => if_neg h⟩
  · simp only [stdExtremum, normAxis_none.2 ha]
  · rintro ops ⟨p, hp, q, hq, hpq⟩ axis
    match ops, axis with
    | [], _ => simp at hp
    | [r], _ =>
      obtain rfl := List.mem_singleton.1 hp
      obtain rfl := List.mem_singleton.1 hq
      exact absurd rfl hpq
    | r :: r' :: ops, some a => rfl
    | r :: r' :: ops, none =>
      obtain ⟨rn, rs⟩ := r
      simp only [stdExtremum]
      rw [if_neg (by simp), if_neg]
      intro hall
      have hany : ∀ x ∈ (rn, rs) :: r' :: ops, x.2 = rs := by
        intro x hx
        rcases List.mem_cons.1 hx with rfl | hx
        · rfl
        · exact hall x hx
      exact hpq ((hany p hp).trans (hany q hq).symm)

/-- **C34**: `IndexError` for an axis that does not exist, `ValueError` for one that is named twice. -/
theorem c34_exceptions (name : String) (shape : List Nat) {p : Int} (hp : p % 2 = 0) (h0 : 0 < p) (axes : List Int) :
    ((∃ a ∈ axes, a < -shape.length ∨ (shape.length : Int) ≤ a) →
      stdPnorm name shape p (some axes) = .error .indexError) ∧
    ∀ l, List.Forall₂ (fun (a : Int) (k : Nat) => k < shape.length ∧ (a = k ∨ a = (k : Int) - shape.length)) axes l →
      ¬ l.Nodup → stdPnorm name shape p (some axes) = .error .valueError := by
  have h : ¬ (p % 2 ≠ 0 ∨ p ≤ 0) := by omega
  refine ⟨fun hx => ?_, fun l hl hn => ?_⟩
  · unfold stdPnorm
    rw [if_neg h]
    simp only [normAxes_exceptions.1 hx]
  · unfold stdPnorm
    rw [if_neg h]
    simp only [normAxes_exceptions.2 l hl hn]

/-- **C35**: `UnboundLocalError` for no operands, `IndexError` for an axis that the last operand does not have,
`ValueError` for one that is named twice, and `ValueError` by OpenMDAO for an operand that is given twice. -/
theorem c35_exceptions (ops : List (String × List Nat)) (n : String) (shape : List Nat) (axes : List Int) :
    (∀ ax, stdRed [] ax = .error .unboundLocalError) ∧
    ((∃ a ∈ axes, a < -shape.length ∨ (shape.length : Int) ≤ a) →
      stdRed (ops ++ [(n, shape)]) (some axes) = .error .indexError) ∧
    (∀ l, List.Forall₂ (fun (a : Int) (k : Nat) => k < shape.length ∧ (a = k ∨ a = (k : Int) - shape.length)) axes l →
      ¬ l.Nodup → stdRed (ops ++ [(n, shape)]) (some axes) = .error .valueError) ∧
    ∀ c : Red, ¬ c.names.Nodup → c.setup = .error .valueError := by
  refine ⟨fun ax => rfl, fun hx => ?_, fun l hl hn => ?_, fun c h => if_neg h⟩
  · unfold stdRed
    rw [List.getLast?_concat]
    simp only [normAxes_exceptions.1 hx]
  · unfold stdRed
    rw [List.getLast?_concat]
    simp only [normAxes_exceptions.2 l hl hn]

/-- **C36**: `IndexError` if the first operand has less than two axes or the second has none; `Exception` if the second has
too many or one of another length; `ValueError`, by OpenMDAO or NumPy, for a first operand with more than two axes, unless
all of them but the first have length one, and for one operand given twice. -/
theorem c36_exceptions (n0 n1 : String) (m n : Nat) (rest shape2 : List Nat) :
    (∀ shape1 : List Nat, shape1.length < 2 →
      stdMatmat n0 shape1 n1 shape2 = .error .indexError ∧ stdMatvec n0 shape1 n1 shape2 = .error .indexError) ∧
    stdMatmat n0 (m :: n :: rest) n1 [] = .error .indexError ∧ stdMatvec n0 (m :: n :: rest) n1 [] = .error .indexError ∧
    (∀ k l, k ≠ n ∨ 2 ≤ l.length → stdMatmat n0 (m :: n :: rest) n1 (k :: l) = .error .exception) ∧
    (∀ k l, k ≠ n ∨ 1 ≤ l.length → stdMatvec n0 (m :: n :: rest) n1 (k :: l) = .error .exception) ∧
    (rest ≠ [] → prodShape (n :: rest) ≠ 1 →
      (∀ l, l.length < 2 → stdMatmat n0 (m :: n :: rest) n1 (n :: l) = .error .valueError) ∧
      stdMatvec n0 (m :: n :: rest) n1 [n] = .error .valueError) ∧
    (∀ c : MatMat, c.n0 = c.n1 → c.setup = .error .valueError) ∧
    ∀ c : MatVec, c.n0 = c.n1 → c.setup = .error .valueError := by
  refine ⟨fun s hs => ?_, rfl, rfl, fun k l h => if_pos (h.imp (fun h e => h e.symm) id),
    fun k l h => if_pos (h.imp (fun h e => h e.symm) id), fun hr h => ?_, fun c h => if_pos h, fun c h => if_pos h⟩
  · rcases s with _ | ⟨a, _ | ⟨b, s⟩⟩
    · exact ⟨rfl, rfl⟩
    · exact ⟨rfl, rfl⟩
    · simp at hs
  · have h' : rest ≠ [] ∧ (prodShape rest ≠ 1 ∨ n ≠ 1) := by
      refine ⟨hr, ?_⟩
      by_contra h2
      push Not at h2
      rw [prodShape_cons, h2.1, h2.2] at h
      exact h rfl
    refine ⟨fun l hl => ?_, ?_⟩
    · simp only [stdMatmat]
      rw [if_neg (by simpa using hl), if_pos h']
    · simp only [stdMatvec]
      rw [if_neg (by simp), if_pos h']

/-- **C37**: `ValueError`. -/
theorem c37_exceptions (n0 n1 : String) (s t : List Nat) :
    (26 < s.length + t.length → stdOuter n0 s n1 t = .error .valueError) ∧
    ∀ c : Outer, c.n0 = c.n1 → c.setup = .error .valueError :=
  ⟨fun h => if_neg (by omega), fun c h => if_pos h⟩

/-- **C38**, `dot`: `Exception` for different shapes, and for an axis whose length is not three; of operands that are not
vectors, `TypeError` without an axis and `IndexError` for an axis that does not exist. -/
theorem c38_dot_exceptions (n0 n1 : String) (s t : List Nat) (axis : Option Int) :
    (s ≠ t → stdDot n0 s n1 t axis = .error .exception) ∧
    (s.length ≠ 1 → stdDot n0 s n1 s none = .error .typeError ∧
      (∀ a : Int, a < -s.length ∨ (s.length : Int) ≤ a → stdDot n0 s n1 s (some a) = .error .indexError) ∧
      ∀ (a : Int) (k d : Nat), (a = k ∨ a = (k : Int) - s.length) → s[k]? = some d → d ≠ 3 →
        stdDot n0 s n1 s (some a) = .error .exception) := by
  refine ⟨fun h => if_pos h, fun hs => ?_⟩
  have hdot : ∀ ax, stdDot n0 s n1 s ax =
      (match ax with
      | none => .error .typeError
      | some a =>
        match normAxis s.length a with
        | none => .error .indexError
        | some ax => if s.getD ax 0 ≠ 3 then .error .exception else .ok (.inr ⟨n0, n1, s, ax⟩)) := by
    intro ax
    unfold stdDot
    rw [if_neg (by simp)]
    rcases s with _ | ⟨a, _ | ⟨b, s⟩⟩
    · rfl
    · exact absurd rfl hs
    · rfl
  refine ⟨hdot _, fun a ha => ?_, fun a k d ha hk hd => ?_⟩
  · rw [hdot]
    simp only [normAxis_none.2 ha]
  · have hlt : k < s.length := by
      by_contra hc
      rw [List.getElem?_eq_none (by omega)] at hk
      cases hk
    rw [hdot]
    simp only [normAxis_some.2 ⟨hlt, ha⟩]
    rw [if_pos]
    simpa [List.getD_eq_getElem?_getD, hk] using hd

/-- **C38**, `inner`: of vectors, `ValueError` for different lengths; of others, `TypeError` without axes, `IndexError` if one
of the axes of either operand does not exist, and otherwise `ValueError` for axes that are named twice or of different
lengths. -/
theorem c38_inner_exceptions (n0 n1 : String) (s t : List Nat) (hv : s.length ≠ 1 ∨ t.length ≠ 1) (a0 a1 : List Int) :
    (∀ m n ax, m ≠ n → stdInner n0 [m] n1 [n] ax = .error .valueError) ∧
    stdInner n0 s n1 t none = .error .typeError ∧
    ((∃ a ∈ a0, a < -s.length ∨ (s.length : Int) ≤ a) ∨ (∃ a ∈ a1, a < -t.length ∨ (t.length : Int) ≤ a) →
      stdInner n0 s n1 t (some (a0, a1)) = .error .indexError) ∧
    ∀ l l', List.Forall₂ (fun (a : Int) (k : Nat) => k < s.length ∧ (a = k ∨ a = (k : Int) - s.length)) a0 l →
      List.Forall₂ (fun (a : Int) (k : Nat) => k < t.length ∧ (a = k ∨ a = (k : Int) - t.length)) a1 l' →
      ¬ l.Nodup ∨ ¬ l'.Nodup ∨ l.map (fun k => s.getD k 0) ≠ l'.map (fun k => t.getD k 0) →
      stdInner n0 s n1 t (some (a0, a1)) = .error .valueError := by
  have hin : ∀ ax, stdInner n0 s n1 t ax =
      (match ax with
      | none => .error .typeError
      | some (a0, a1) =>
        match normAxes s.length a0 with
        | .error e => if a1.mapM (normAxis t.length) = none then .error .indexError else .error e
        | .ok l0 =>
          match normAxes t.length a1 with
          | .error e => .error e
          | .ok l1 =>
            if l0.map (fun k => s.getD k 0) ≠ l1.map (fun k => t.getD k 0) then .error .valueError
            else .ok (.inr ⟨n0, n1, s, t, a0, a1⟩)) := by
    intro ax
    rcases s with _ | ⟨a, _ | ⟨b, s⟩⟩
    · rfl
    · rcases t with _ | ⟨c, _ | ⟨d, t⟩⟩
      · rfl
      · simp at hv
      · rfl
    · rfl
  refine ⟨fun m n ax h => if_neg h, hin _, fun h => ?_, fun l l' hl hl' h => ?_⟩
  · rw [hin]
    rcases h with h | h
    · simp only [normAxes_exceptions.1 h]
      split <;> rfl
    · cases h0 : normAxes s.length a0 with
      | error e => simp only [h0, if_pos (mapM_normAxis_none.2 h)]
      | ok l0 => simp only [h0, normAxes_exceptions.1 h]
  · rw [hin]
    have e1 := mapM_normAxis hl
    have e2 := mapM_normAxis hl'
    by_cases hn : l.Nodup
    · by_cases hn' : l'.Nodup
      · simp only [normAxes, e1, e2, if_pos hn, if_pos hn']
        rw [if_pos]
        exact (h.resolve_left (not_not.2 hn)).resolve_left (not_not.2 hn')
      · simp only [normAxes, e1, e2, if_pos hn, if_neg hn']
    · simp only [normAxes, e1, e2, if_neg hn]
      simp

/-- **C39**: `Exception` for different shapes and for an axis whose length is not three; `IndexError` for an axis that does
not exist; `ValueError` for everything else that is refused (see `c39_accepted`). -/
theorem c39_exceptions (n0 n1 : String) (s t : List Nat) (axis : Int) :
    (s ≠ t → stdCross n0 s n1 t axis = .error .exception) ∧
    (axis < -s.length ∨ (s.length : Int) ≤ axis → stdCross n0 s n1 s axis = .error .indexError) ∧
    ∀ k d : Nat, (axis = k ∨ axis = (k : Int) - s.length) → s[k]? = some d →
      (d ≠ 3 → stdCross n0 s n1 s axis = .error .exception) ∧
      (d = 3 → 11 < s.length ∨ axis = -1 ∨ axis < 0 ∧ (s.length : Int) - axis < 11 →
        stdCross n0 s n1 s axis = .error .valueError) ∧
      ∀ c : Cross, c.n0 = c.n1 → c.setup = .error .valueError := by
  refine ⟨fun h => if_pos h, fun h => ?_, fun k d ha hk => ?_⟩
  · unfold stdCross
    rw [if_neg (by simp)]
    simp only [normAxis_none.2 h]
  · have hlt : k < s.length := by
      by_contra hc
      rw [List.getElem?_eq_none (by omega)] at hk
      cases hk
    have hd : s.getD k 0 = d := by simp [List.getD_eq_getElem?_getD, hk]
    refine ⟨fun h => ?_, fun h h' => ?_, fun c h => if_pos h⟩
    · unfold stdCross
      rw [if_neg (by simp)]
      simp only [normAxis_some.2 ⟨hlt, ha⟩, hd]
      exact if_pos h
    · cases hc : stdCross n0 s n1 s axis with
      | ok c => obtain ⟨-, h1, k', -, h2 | h2⟩ := stdCross_iff.1 hc <;> omega
      | error e =>
        unfold stdCross at hc
        rw [if_neg (by simp)] at hc
        simp only [normAxis_some.2 ⟨hlt, ha⟩, hd] at hc
        rw [if_neg (by simpa using h)] at hc
        split_ifs at hc <;> cases hc <;> rfl

/-- **C47**: `ValueError`, by OpenMDAO, for branches that are not scalars. -/
theorem c47_exceptions {cond t f : String × List Nat} :
    (t.2 ≠ f.2 → stdIfElse cond t f = .error .valueError) ∧
    ∀ c, stdIfElse cond t f = .ok c → 1 < prodShape t.2 → c.setup = .error .valueError := by
  refine ⟨fun h => if_pos h, fun c h hs => ?_⟩
  unfold stdIfElse at h
  split at h
  · cases h
  · obtain rfl := Except.ok.inj h
    unfold IfElse.setup
    by_cases hn : ¬ [cond.1, t.1, f.1].Nodup
    · rw [if_pos hn]
    · rw [if_neg hn, if_pos]
      exact ⟨1, by simpa using hs, by simp [IfElse.outShape, prodShape]⟩

example : stdCross "a" [2, 3] "b" [2, 3] (-1) = .error .valueError :=
  ((c39_exceptions "a" "b" [2, 3] [] (-1)).2.2 1 3 (Or.inr rfl) rfl).2.1 rfl (Or.inr (Or.inl rfl))

example : stdInner "a" [2, 3] "b" [4] (some ([1], [0])) = .error .valueError :=
  (c38_inner_exceptions "a" "b" [2, 3] [4] (by simp) [1] [0]).2.2.2 [1] [0] (.cons ⟨by decide, Or.inl rfl⟩ .nil)
    (.cons ⟨by decide, Or.inl rfl⟩ .nil) (Or.inr (Or.inr (by decide)))

example : stdRed [("x", [2, 3])] (some [2]) = .error .indexError :=
  (c35_exceptions [] "x" [2, 3] [2]).2.1 ⟨2, by simp, by decide⟩

end OM
