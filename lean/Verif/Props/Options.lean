import Verif.Spec.Options
import Mathlib.Data.List.TakeWhile

/-! # Options (C50) -/

namespace OM
open Spec

variable {V : Type}

theorem declareErr_eq_none {d : Decl V} : declareErr d = none ↔ ArgsOk d := by
  unfold declareErr ArgsOk
  rcases hv : d.values with _ | (vs | _) <;> rcases ht : d.types with _ | (f | _ | _) <;> simp

theorem boundErr_eq_none {cmp : V → V → Except PyErr Bool} {v : V} {b : Option V} :
    boundErr cmp v b = none ↔ ∀ x, b = some x → cmp v x = .ok false := by
  unfold boundErr
  cases b with
  | none => simp
  | some b => rcases h : cmp v b with _ | (_ | _) <;> simp [h]

theorem kindErr_eq_none {P : PyOps V} {d : Decl V} (hd : ArgsOk d) {v : V} : kindErr P d v = none ↔
    (∀ vs, d.values = some (.vals vs) → ∃ w ∈ vs, P.eq v w = true) ∧
      ∀ t, d.types = some t → ∃ f, t = .inst f ∧ f v = true := by
  obtain ⟨h1, h2, h3⟩ := hd
  unfold kindErr
  rcases hv : d.values with _ | (vs | _) <;> rcases ht : d.types with _ | (f | _ | _) <;> simp_all

theorem assertValid_eq_none {P : PyOps V} {d : Decl V} (hd : ArgsOk d) {name : String} {v : V} :
    assertValid P d name v = none ↔ Meets P d name v := by
  have hc : ∀ Q : Prop, Q → (((match d.check with | none => none | some f => f name v) = (none : Option PyErr)) ↔
      Q ∧ ∀ f, d.check = some f → f name v = none) := by
    intro Q hQ
    cases d.check <;> simp [hQ]
  unfold assertValid Meets
  simp only
  by_cases hn : (P.isNone v && d.allowNone) = true
  · rw [if_pos hn]
    rw [Bool.and_eq_true] at hn
    exact hc _ (.inl hn)
  · rw [if_neg hn]
    rw [Bool.and_eq_true] at hn
    have hk := kindErr_eq_none (P := P) hd (v := v)
    have hu := boundErr_eq_none (cmp := P.gt) (v := v) (b := d.upper)
    have hl := boundErr_eq_none (cmp := P.lt) (v := v) (b := d.lower)
    cases ek : kindErr P d v with
    | some e =>
      rw [ek] at hk
      simp only [reduceCtorEq, false_iff]
      rintro ⟨h | h, _⟩
      · exact hn h
      · exact absurd (hk.2 ⟨h.1, h.2.1⟩) (by simp)
    | none =>
      cases eu : boundErr P.gt v d.upper with
      | some e =>
        rw [eu] at hu
        simp only [reduceCtorEq, false_iff]
        rintro ⟨h | h, _⟩
        · exact hn h
        · exact absurd (hu.2 h.2.2.1) (by simp)
      | none =>
        cases el : boundErr P.lt v d.lower with
        | some e =>
          rw [el] at hl
          simp only [reduceCtorEq, false_iff]
          rintro ⟨h | h, _⟩
          · exact hn h
          · exact absurd (hl.2 h.2.2.2) (by simp)
        | none =>
          exact hc _ (.inr ⟨(hk.1 ek).1, (hk.1 ek).2, hu.1 eu, hl.1 el⟩)

/-- The state agrees with the history, latest call first. -/
structure OptAgree (P : PyOps V) (ro : Bool) (h : List (OptOp V)) (s : OptState V) : Prop where
  readOnly : s.readOnly = ro
  dict : ∀ n, s.dict n = (declOf h n).map fun d => (d, valueOf P ro h n)

theorem declOf_argsOk {h : List (OptOp V)} {n : String} {d : Decl V} (hd : declOf h n = some d) : ArgsOk d := by
  induction h with
  | nil => cases hd
  | cons op h ih =>
    cases op with
    | declare m d' =>
      unfold declOf at hd
      split at hd
      · rename_i hc; cases hd; exact hc.2
      · exact ih hd
    | undeclare m =>
      unfold declOf at hd
      split at hd
      · cases hd
      · exact ih hd
    | set m v => exact ih hd
    | update l => exact ih hd

/-- One assignment: accepted or not, according to the specification. -/
theorem setItem_spec {P : PyOps V} {h : List (OptOp V)} {s : OptState V}
    (hs : ∀ n, (s.dict n).map Prod.fst = declOf h n) (m : String) (v : V) :
    (Accepts P s.readOnly h (m, v) → (s.setItem P m v).2 = none ∧ (s.setItem P m v).1.readOnly = s.readOnly ∧
      ∀ n, (s.setItem P m v).1.dict n = if m = n then (declOf h n).map fun d => (d, some v) else s.dict n) ∧
    (¬ Accepts P s.readOnly h (m, v) → (s.setItem P m v).2 ≠ none ∧ (s.setItem P m v).1 = s) := by
  have hm := hs m
  unfold OptState.setItem Accepts
  cases hd : s.dict m with
  | none =>
    rw [hd] at hm
    refine ⟨?_, fun _ => ⟨by simp, rfl⟩⟩
    rintro ⟨_, d, h1, _⟩
    rw [← hm] at h1
    cases h1
  | some p =>
    obtain ⟨d, w⟩ := p
    rw [hd] at hm
    have hm' : declOf h m = some d := hm.symm
    have hok := declOf_argsOk hm'
    simp only
    cases hr : s.readOnly with
    | true => exact ⟨fun hc => by simp at hc, fun _ => ⟨by simp, by simp⟩⟩
    | false =>
      rw [if_neg (by simp)]
      cases ha : assertValid P d m v with
      | some e =>
        refine ⟨?_, fun _ => ⟨by simp, rfl⟩⟩
        rintro ⟨_, d', h1, h2⟩
        rw [hm'] at h1
        cases h1
        rw [(assertValid_eq_none hok).2 h2] at ha
        cases ha
      | none =>
        refine ⟨fun _ => ⟨rfl, rfl, fun n => ?_⟩, fun hn => absurd ⟨rfl, d, hm', (assertValid_eq_none hok).1 ha⟩ hn⟩
        simp only
        by_cases he : m = n
        · subst he
          rw [if_pos rfl, Function.update_self, hm']
          rfl
        · rw [if_neg he, Function.update_of_ne (Ne.symm he)]

open Classical in
theorem update_spec {P : PyOps V} {h : List (OptOp V)} (l : List (String × V)) : ∀ {s : OptState V},
    (∀ n, (s.dict n).map Prod.fst = declOf h n) → (s.update P l).1.readOnly = s.readOnly ∧
    (∀ n, (s.update P l).1.dict n =
      match (l.takeWhile fun p => Accepts P s.readOnly h p).reverse.find? fun p => p.1 = n with
      | some p => (declOf h n).map fun d => (d, some p.2)
      | none => s.dict n) ∧
    ((s.update P l).2 = none ↔ ∀ p ∈ l, Accepts P s.readOnly h p) := by
  induction l with
  | nil => intro s _; exact ⟨rfl, fun n => rfl, by simp [OptState.update]⟩
  | cons p l ih =>
    intro s hs
    obtain ⟨hyes, hno⟩ := setItem_spec (P := P) hs p.1 p.2
    unfold OptState.update
    by_cases hacc : Accepts P s.readOnly h p
    · obtain ⟨e1, e2, e3⟩ := hyes hacc
      have hs1 : ∀ n, ((s.setItem P p.1 p.2).1.dict n).map Prod.fst = declOf h n := by
        intro n
        rw [e3]
        split
        · rw [Option.map_map]
          exact Option.map_id'
        · exact hs n
      generalize s.setItem P p.1 p.2 = r at e1 e2 e3 hs1
      obtain ⟨s1, o⟩ := r
      simp only at e1 e2 e3 hs1
      subst e1
      obtain ⟨i1, i2, i3⟩ := ih hs1
      simp only
      rw [e2] at i1 i2 i3
      refine ⟨i1, fun n => ?_, ?_⟩
      · rw [i2, List.takeWhile_cons_of_pos (by simpa using hacc), List.reverse_cons, List.find?_append]
        cases hf : (l.takeWhile fun p => Accepts P s.readOnly h p).reverse.find? fun p => p.1 = n with
        | some q => rfl
        | none =>
          rw [Option.none_or]
          simp only
          rw [e3]
          by_cases he : p.1 = n
          · rw [if_pos he, List.find?_cons_of_pos (by simpa using he)]
          · rw [if_neg he, List.find?_cons_of_neg (by simpa using he)]
            rfl
      · rw [i3]
        simp [hacc]
    · obtain ⟨e1, e2⟩ := hno hacc
      generalize s.setItem P p.1 p.2 = r at e1 e2
      obtain ⟨s1, o⟩ := r
      simp only at e1 e2
      subst e2
      obtain ⟨e, rfl⟩ := Option.ne_none_iff_exists'.1 e1
      refine ⟨rfl, fun n => ?_, ?_⟩
      · rw [List.takeWhile_cons_of_neg (by simpa using hacc)]
        rfl
      · simp [hacc]

open Classical in
theorem OptAgree.step {P : PyOps V} {ro : Bool} {h : List (OptOp V)} {s : OptState V} (a : OptAgree P ro h s)
    (op : OptOp V) : OptAgree P ro (op :: h) (s.step P op).1 := by
  have hs : ∀ n, (s.dict n).map Prod.fst = declOf h n := by
    intro n
    rw [a.dict, Option.map_map]
    exact Option.map_id'
  cases op with
  | declare m d =>
    unfold OptState.step
    simp only
    cases he : declareErr d with
    | some e =>
      have hn : ¬ ArgsOk d := fun hk => by rw [declareErr_eq_none.2 hk] at he; cases he
      refine ⟨a.readOnly, fun n => ?_⟩
      simp only [declOf, valueOf, hn, and_false, if_false]
      exact a.dict n
    | none =>
      have hk := declareErr_eq_none.1 he
      have hfin : OptAgree P ro (.declare m d :: h)
          { s with dict := Function.update s.dict m (some (d, d.default)) } := by
        refine ⟨a.readOnly, fun n => ?_⟩
        simp only [declOf, valueOf, hk, and_true]
        by_cases hmn : m = n
        · subst hmn
          simp
        · rw [Function.update_of_ne (Ne.symm hmn), if_neg hmn, if_neg hmn]
          exact a.dict n
      simp only
      split
      · exact hfin
      · exact hfin
  | undeclare m =>
    refine ⟨a.readOnly, fun n => ?_⟩
    simp only [OptState.step, declOf, valueOf]
    by_cases hmn : m = n
    · subst hmn
      simp
    · rw [Function.update_of_ne (Ne.symm hmn), if_neg hmn, if_neg hmn]
      exact a.dict n
  | set m v =>
    obtain ⟨hyes, hno⟩ := setItem_spec (P := P) hs m v
    rw [a.readOnly] at hyes hno
    simp only [OptState.step]
    by_cases hacc : Accepts P ro h (m, v)
    · obtain ⟨_, e2, e3⟩ := hyes hacc
      refine ⟨e2, fun n => ?_⟩
      rw [e3]
      simp only [declOf, valueOf, hacc, and_true]
      by_cases hmn : m = n
      · rw [if_pos hmn, if_pos hmn]
      · rw [if_neg hmn, if_neg hmn]
        exact a.dict n
    · obtain ⟨_, e2⟩ := hno hacc
      rw [e2]
      refine ⟨a.readOnly, fun n => ?_⟩
      simp only [declOf, valueOf, hacc, and_false, if_false]
      exact a.dict n
  | update l =>
    obtain ⟨e1, e2, _⟩ := update_spec (P := P) l hs
    rw [a.readOnly] at e1 e2
    refine ⟨e1, fun n => ?_⟩
    rw [OptState.step, e2]
    simp only [declOf, valueOf]
    cases hf : (l.takeWhile fun p => Accepts P ro h p).reverse.find? fun p => p.1 = n with
    | some p => rfl
    | none => exact a.dict n

theorem optAgree_run (P : PyOps V) (ro : Bool) (ops : List (OptOp V)) :
    OptAgree P ro ops.reverse ((OptState.init V ro).run P ops) := by
  have key : ∀ (ops : List (OptOp V)) (h : List (OptOp V)) (s : OptState V), OptAgree P ro h s →
      OptAgree P ro (ops.reverse ++ h) (s.run P ops) := by
    intro ops
    induction ops with
    | nil => intro h s a; exact a
    | cons op ops ih =>
      intro h s a
      have := ih _ _ (a.step op)
      simpa [OptState.run] using this
  simpa using key ops [] _ ⟨rfl, fun n => rfl⟩

/-- **C50**: after every history, reading an option gives the last value accepted since the declaration in force, or
the default given there; it raises `KeyError` if the option is not declared and `RuntimeError` if it has no value. -/
theorem c50_read (P : PyOps V) (ro : Bool) (ops : List (OptOp V)) (n : String) :
    ((OptState.init V ro).run P ops).get n = optRead P ro ops.reverse n := by
  have a := optAgree_run P ro ops
  unfold OptState.get optRead
  rw [a.dict]
  cases declOf ops.reverse n with
  | none => rfl
  | some d => cases valueOf P ro ops.reverse n <;> rfl

/-- **C50**: setting an option raises exactly if it is not declared, options are read only, or the value does not
meet the conditions declared; then nothing changes. -/
theorem c50_set (P : PyOps V) (ro : Bool) (ops : List (OptOp V)) (n : String) (v : V) :
    ((((OptState.init V ro).run P ops).step P (.set n v)).2 = none ↔ Accepts P ro ops.reverse (n, v)) ∧
    ((((OptState.init V ro).run P ops).step P (.set n v)).2 ≠ none →
      (((OptState.init V ro).run P ops).step P (.set n v)).1 = (OptState.init V ro).run P ops) := by
  have a := optAgree_run P ro ops
  have hs : ∀ n, (((OptState.init V ro).run P ops).dict n).map Prod.fst = declOf ops.reverse n := by
    intro n
    rw [a.dict, Option.map_map]
    exact Option.map_id'
  obtain ⟨hyes, hno⟩ := setItem_spec (P := P) hs n v
  rw [a.readOnly] at hyes hno
  by_cases hacc : Accepts P ro ops.reverse (n, v)
  · exact ⟨⟨fun _ => hacc, fun h => (hyes h).1⟩, fun h => absurd (hyes hacc).1 h⟩
  · exact ⟨⟨fun h => absurd h (hno hacc).1, fun h => absurd h hacc⟩, fun _ => (hno hacc).2⟩

open Classical in
theorem valueOf_meets {P : PyOps V} {ro : Bool} {h : List (OptOp V)}
    (hd : ∀ n d v, .declare n d ∈ h → ArgsOk d → d.default = some v → Meets P d n v) {n : String} {v : V}
    (hv : valueOf P ro h n = some v) : ∃ d, declOf h n = some d ∧ Meets P d n v := by
  induction h with
  | nil => cases hv
  | cons op h ih =>
    have ih' := ih fun n d v hm => hd n d v (List.mem_cons_of_mem _ hm)
    cases op with
    | declare m d =>
      unfold valueOf at hv
      unfold declOf
      split at hv
      · rename_i hc
        rw [if_pos hc]
        obtain ⟨rfl, hk⟩ := hc
        exact ⟨d, rfl, hd m d v List.mem_cons_self hk hv⟩
      · rename_i hc
        rw [if_neg hc]
        exact ih' hv
    | undeclare m =>
      unfold valueOf at hv
      unfold declOf
      split at hv
      · cases hv
      · rename_i hc
        rw [if_neg hc]
        exact ih' hv
    | set m w =>
      unfold valueOf at hv
      unfold declOf
      split at hv
      · rename_i hc
        cases hv
        obtain ⟨rfl, _, d, h1, h2⟩ := hc
        exact ⟨d, h1, h2⟩
      · exact ih' hv
    | update l =>
      unfold valueOf at hv
      unfold declOf
      split at hv
      · rename_i p hp
        cases hv
        have hm := List.mem_of_find?_eq_some hp
        have hn : p.1 = n := by simpa using List.find?_some hp
        have hacc := List.mem_takeWhile_imp (List.mem_reverse.1 hm)
        obtain ⟨_, d, h1, h2⟩ := (decide_eq_true_iff).1 hacc
        exact ⟨d, hn ▸ h1, hn ▸ h2⟩
      · exact ih' hv

/-- The exceptions that setting an option raises: `KeyError` if it is not declared or options are read only;
otherwise, unless the value is `None` and this is allowed, `ValueError` for a value that is not in the list declared,
`TypeError` for one of another type, and `ValueError` for one beyond a bound; what `check_valid` raises for others. -/
theorem c50_exceptions (P : PyOps V) (ro : Bool) (ops : List (OptOp V)) (n : String) (v : V) :
    (declOf ops.reverse n = none ∨ ro = true →
      (((OptState.init V ro).run P ops).step P (.set n v)).2 = some .keyError) ∧
    ∀ d, declOf ops.reverse n = some d → ro = false → ¬ (P.isNone v && d.allowNone) = true →
      (∀ vs, d.values = some (.vals vs) → vs.any (P.eq v) = false →
        (((OptState.init V ro).run P ops).step P (.set n v)).2 = some .valueError) ∧
      (∀ f, d.values = none → d.types = some (.inst f) → f v = false →
        (((OptState.init V ro).run P ops).step P (.set n v)).2 = some .typeError) ∧
      ((∀ vs, d.values = some (.vals vs) → vs.any (P.eq v) = true) →
        (∀ t, d.types = some t → ∃ f, t = .inst f ∧ f v = true) →
        (∀ b, (d.upper = some b ∧ P.gt v b = .ok true) ∨
          ((∀ u, d.upper = some u → P.gt v u = .ok false) ∧ d.lower = some b ∧ P.lt v b = .ok true) →
          (((OptState.init V ro).run P ops).step P (.set n v)).2 = some .valueError) ∧
        ∀ f, (∀ u, d.upper = some u → P.gt v u = .ok false) → (∀ u, d.lower = some u → P.lt v u = .ok false) →
          d.check = some f → (((OptState.init V ro).run P ops).step P (.set n v)).2 = f n v) := by
  have a := optAgree_run P ro ops
  have hd := a.dict n
  have hro := a.readOnly
  generalize (OptState.init V ro).run P ops = s at hd hro
  show (_ → (s.setItem P n v).2 = _) ∧ ∀ d, _ → _ → _ → (∀ vs, _ → _ → (s.setItem P n v).2 = _) ∧
    (∀ f, _ → _ → _ → (s.setItem P n v).2 = _) ∧
    (_ → _ → (∀ b, _ → (s.setItem P n v).2 = _) ∧ ∀ f, _ → _ → _ → (s.setItem P n v).2 = _)
  unfold OptState.setItem
  rw [hd, hro]
  refine ⟨?_, ?_⟩
  · rintro (h | rfl)
    · rw [h]; rfl
    · cases declOf ops.reverse n <;> rfl
  · rintro d h rfl hn
    rw [h]
    simp only [Option.map_some, Bool.false_eq_true, if_false, assertValid, hn]
    have hargs := declOf_argsOk h
    refine ⟨fun vs h1 h2 => ?_, fun f h0 h1 h2 => ?_, fun hv ht => ?_⟩
    · simp [kindErr, h1, h2]
    · simp [kindErr, h0, h1, h2]
    · have hk : kindErr P d v = none := by
        rw [kindErr_eq_none hargs]
        exact ⟨fun vs h1 => by simpa using hv vs h1, ht⟩
      rw [hk]
      refine ⟨fun b hb => ?_, fun f h1 h2 h3 => ?_⟩
      · rcases hb with ⟨h1, h2⟩ | ⟨h1, h2, h3⟩
        · simp [boundErr, h1, h2]
        · cases hu : d.upper with
          | none => simp [boundErr, h2, h3]
          | some u => simp [boundErr, h1 u hu, h2, h3]
      · cases hu : d.upper <;> cases hl : d.lower <;> simp [boundErr, h1, h2, h3, hu, hl] <;>
          cases hf : f n v <;> rfl

/-- The exceptions of `declare` for its arguments, none of which changes the options: `TypeError` for values or types
that are neither a collection nor, for types, a type; `RuntimeError` for both. -/
theorem c50_declare_exceptions (P : PyOps V) (s : OptState V) (n : String) (d : Decl V) :
    (d.values = some .bad ∨ d.types = some .bad → s.step P (.declare n d) = (s, some .typeError)) ∧
    (∀ vs, d.values = some (.vals vs) → ∀ t, d.types = some t → t ≠ .bad →
      s.step P (.declare n d) = (s, some .runtimeError)) := by
  refine ⟨fun h => ?_, fun vs hv t ht hb => ?_⟩
  · have : declareErr d = some .typeError := by
      unfold declareErr
      rcases h with h | h
      · rw [h]
      · rw [h]; cases d.values with
        | none => rfl
        | some v => cases v <;> rfl
    simp [OptState.step, this]
  · have : declareErr d = some .runtimeError := by
      unfold declareErr
      rw [hv, ht]
      cases t with
      | bad => exact absurd rfl hb
      | _ => rfl
    simp [OptState.step, this]

/-- **C50**: a value that is read meets the conditions declared, if every default does. Missing: defaults that do
not (`c50_invalid_default`). -/
theorem c50_valid_partial (P : PyOps V) (ro : Bool) (ops : List (OptOp V))
    (hd : ∀ n d v, .declare n d ∈ ops → ArgsOk d → d.default = some v → Meets P d n v) {n : String} {v : V}
    (hv : ((OptState.init V ro).run P ops).get n = .ok v) :
    ∃ d, declOf ops.reverse n = some d ∧ Meets P d n v := by
  rw [c50_read] at hv
  unfold optRead at hv
  split at hv
  · cases hv
  · split at hv
    · cases hv
    · rename_i w hw
      cases hv
      exact valueOf_meets (fun n d v hm => hd n d v (List.mem_reverse.1 hm)) hw

/-- The claim is false for an invalid default: `declare` raises, but the option is declared and its value read. -/
theorem c50_invalid_default (P : PyOps V) (s : OptState V) (n : String) {d : Decl V} (hk : ArgsOk d) {v : V}
    (hd : d.default = some v) (hv : ¬ Meets P d n v) :
    (s.step P (.declare n d)).2 ≠ none ∧ (s.step P (.declare n d)).1.get n = .ok v := by
  have he := declareErr_eq_none.2 hk
  unfold OptState.step
  simp only [he, hd]
  refine ⟨fun hn => hv ((assertValid_eq_none hk).1 hn), ?_⟩
  simp [OptState.get]

/-- Types given as a list or set are accepted by `declare`, but no value is then (other than `None`, if allowed). -/
theorem c50_types_list (P : PyOps V) (n : String) {d : Decl V} (hk : ArgsOk d) (ht : d.types = some .collection)
    (v : V) (hv : ¬ (P.isNone v = true ∧ d.allowNone = true)) : assertValid P d n v = some .typeError := by
  have hvals : d.values = none := by
    rcases hk.2.2 with h | h
    · exact h
    · rw [h] at ht; cases ht
  unfold assertValid
  simp only
  rw [if_neg (by rwa [Bool.and_eq_true])]
  simp [kindErr, hvals, ht]

/-- The options of the examples: natural numbers, `0` in the place of `None`. -/
def natOps : PyOps Nat := ⟨fun v => v == 0, fun a b => a == b, fun a b => .ok (b < a), fun a b => .ok (a < b)⟩

def natDecl (dflt : Option Nat) : Decl Nat := ⟨dflt, none, some (.inst fun _ => true), some 5, some 2, none, false⟩

theorem natDecl_ok (dflt : Option Nat) : ArgsOk (natDecl dflt) := by
  simp [ArgsOk, natDecl]

/-- The hypothesis of `c50_valid_partial` for the history below. -/
example : ∀ n d v, OptOp.declare n d ∈ [OptOp.declare "a" (natDecl (some 3)), .set "a" 4, .set "a" 7,
    .update [("b", 3), ("a", 5)]] → ArgsOk d → d.default = some v → Meets natOps d n v := by
  intro n d v hm _ hv
  simp only [List.mem_cons, List.not_mem_nil, or_false, OptOp.declare.injEq, reduceCtorEq] at hm
  obtain ⟨rfl, rfl⟩ := hm
  cases hv
  rw [← assertValid_eq_none (natDecl_ok _)]
  decide

/-- A history that meets the hypotheses of `c50_valid_partial` and in which a value is read: 7 is refused. -/
example : ((OptState.init Nat false).run natOps
    [.declare "a" (natDecl (some 3)), .set "a" 4, .set "a" 7, .update [("b", 3), ("a", 5)]]).get "a" = .ok 4 := by
  rfl

example : ArgsOk (natDecl (some 7)) ∧ ¬ Meets natOps (natDecl (some 7)) "a" 7 := by
  refine ⟨natDecl_ok _, ?_⟩
  rw [← assertValid_eq_none (natDecl_ok _)]
  decide

end OM
