import Verif.Model.Aliased
import Verif.Props.Arith

/-!
# C82: constants given to operators

C28 for any number of components that may have been made with the same arrays.
-/

namespace OM
open Classical

/-- What a call with a constant makes, the arrays having the given contents: the array of a sum or a product is the one
of the user, the one of a difference or a quotient is new. -/
inductive Made (D : Nat → Nat → ℝ) : ArithCall → Held → Prop
  | plain {op : ArithOp} {a b : ROperand} {c : ArithComp} (h : op.comp (a.read D) (b.read D) = .ok (some c))
      (hc : c.array? = none) : Made D (op, a, b) ⟨c, none⟩
  | add (n : String) (sh : List Nat) (id : Nat) :
      Made D (.add, .var n sh, .obj id) ⟨.lin ⟨prodShape sh, [(n, 1)], .arr (D id)⟩, some id⟩
  | mul (n : String) (sh : List Nat) (id : Nat) :
      Made D (.mul, .var n sh, .obj id) ⟨.pow ⟨prodShape sh, [(n, .num 1)], .arr (D id)⟩, some id⟩
  | sub (n : String) (sh : List Nat) (id j : Nat) :
      Made D (.sub, .var n sh, .obj id) ⟨.lin ⟨prodShape sh, [(n, 1)], .arr fun i => -D id i⟩, some j⟩
  | div (n : String) (sh : List Nat) (id j : Nat) (h1 : prodShape sh = 1) (h0 : D id 0 ≠ 0) :
      Made D (.div, .var n sh, .obj id) ⟨.pow ⟨prodShape sh, [(n, .num 1)], .arr fun i => 1 / D id i⟩, some j⟩

/-- The array objects of a call. -/
def ArithCall.ids (c : ArithCall) : List Nat :=
  (match c.2.1 with | .obj id => [id] | _ => []) ++ (match c.2.2 with | .obj id => [id] | _ => [])

theorem read_congr {D E : Nat → Nat → ℝ} {c : ArithCall} (h : ∀ id ∈ c.ids, D id = E id) :
    c.2.1.read D = c.2.1.read E ∧ c.2.2.read D = c.2.2.read E := by
  obtain ⟨op, a, b⟩ := c
  constructor
  · cases a with
    | obj id => simp only [ROperand.read]; rw [h id (by simp [ArithCall.ids])]
    | _ => rfl
  · cases b with
    | obj id => simp only [ROperand.read]; rw [h id (by simp [ArithCall.ids])]
    | _ => rfl

theorem call_made {op : ArithOp} {a b : ROperand} {s s' : Arrays} {h : Held} (hc : op.call a b s = .ok (s', h)) :
    Made s.data (op, a, b) h ∧
    ((s' = s ∧ ∀ j, h.slot = some j → b = .obj j ∧ (op = .add ∨ op = .mul)) ∨
      ∃ v, h.comp.array? = some v ∧ h.slot = some s.next ∧ s' = ⟨Function.update s.data s.next v, s.next + 1⟩) := by
  unfold ArithOp.call at hc
  split at hc
  · cases hc
  · cases hc
  · rename_i c hcomp
    split at hc
    · rename_i hnone
      cases hc
      exact ⟨.plain hcomp hnone, .inl ⟨rfl, fun j hj => by cases hj⟩⟩
    · rename_i v hv
      -- only an expression on the left and an array on the right leave an array
      have key : ∃ n sh id, a = .var n sh ∧ b = .obj id := by
        cases a with
        | obj id => cases op <;> simp [ArithOp.comp, ROperand.read, pyOperator] at hcomp
        | num k =>
          cases b with
          | obj id => cases op <;> simp [ArithOp.comp, ROperand.read, pyOperator, buildAdd, buildSub, buildMul, buildDiv] at hcomp
          | num k => cases op <;> simp [ArithOp.comp, ROperand.read, pyOperator, buildAdd, buildSub, buildMul, buildDiv] at hcomp
          | var n sh =>
            exfalso
            cases op <;> simp [ArithOp.comp, ROperand.read, pyOperator, buildAdd, buildSub, buildMul, buildDiv, LinOpts.setup,
              PowOpts.setup, getScalarsList, getPowersList, List.replicate, Except.map] at hcomp <;> subst hcomp <;>
              simp [ArithComp.array?] at hv
        | var n sh =>
          cases b with
          | obj id => exact ⟨n, sh, id, rfl, rfl⟩
          | num k =>
            exfalso
            cases op <;> simp only [ArithOp.comp, ROperand.read, pyOperator, buildAdd, buildSub, buildMul, buildDiv] at hcomp
            · simp [LinOpts.setup, getScalarsList, List.replicate, Except.map] at hcomp
              subst hcomp; simp [ArithComp.array?] at hv
            · simp [LinOpts.setup, getScalarsList, List.replicate, Except.map, Const.neg] at hcomp
              subst hcomp; simp [ArithComp.array?] at hv
            · simp [PowOpts.setup, getPowersList, List.replicate, Except.map] at hcomp
              subst hcomp; simp [ArithComp.array?] at hv
            · split at hcomp <;> [cases hcomp; skip; skip] <;> rename_i heq <;> split at heq <;> cases heq
              simp [PowOpts.setup, getPowersList, List.replicate, Except.map] at hcomp
              subst hcomp; simp [ArithComp.array?] at hv
          | var m t =>
            exfalso
            cases op <;> simp only [ArithOp.comp, ROperand.read, pyOperator, buildAdd, buildSub, buildMul, buildDiv] at hcomp <;>
              split at hcomp <;> (try cases hcomp) <;> rename_i heq <;> split at heq <;> cases heq <;>
              (first | unfold LinOpts.setup at hcomp | unfold PowOpts.setup at hcomp) <;> simp only at hcomp <;>
              split at hcomp <;> simp [Except.map] at hcomp <;> subst hcomp <;> simp [ArithComp.array?] at hv
      obtain ⟨n, sh, id, rfl, rfl⟩ := key
      cases op with
      | add =>
        simp [ArithOp.comp, ROperand.read, pyOperator, buildAdd, LinOpts.setup, getScalarsList, List.replicate, Except.map]
          at hcomp
        cases hc
        subst hcomp
        exact ⟨.add n sh id, .inl ⟨rfl, fun j hj => by cases hj; exact ⟨rfl, .inl rfl⟩⟩⟩
      | mul =>
        simp [ArithOp.comp, ROperand.read, pyOperator, buildMul, PowOpts.setup, getPowersList, List.replicate, Except.map]
          at hcomp
        cases hc
        subst hcomp
        exact ⟨.mul n sh id, .inl ⟨rfl, fun j hj => by cases hj; exact ⟨rfl, .inr rfl⟩⟩⟩
      | sub =>
        simp [ArithOp.comp, ROperand.read, pyOperator, buildSub, LinOpts.setup, getScalarsList, List.replicate, Except.map,
          Const.neg] at hcomp
        cases hc
        subst hcomp
        exact ⟨.sub n sh id s.next, .inr ⟨v, hv, rfl, rfl⟩⟩
      | div =>
        simp only [ArithOp.comp, ROperand.read, pyOperator, buildDiv] at hcomp
        by_cases h1 : prodShape sh = 1
        · by_cases h0 : s.data id 0 = 0
          · simp [h1, h0] at hcomp
          · simp [h1, h0, PowOpts.setup, getPowersList, List.replicate, Except.map] at hcomp
            cases hc
            subst hcomp
            refine ⟨?_, .inr ⟨v, hv, rfl, rfl⟩⟩
            have := Made.div (D := s.data) n sh id s.next h1 h0
            simpa [h1] using this
        · simp [h1] at hcomp

/-- What the calls of a program make. `m` bounds the identities of the user's arrays. -/
theorem arithCalls_made {D : Nat → Nat → ℝ} {m : Nat} {calls : List ArithCall} (hm : ∀ c ∈ calls, ∀ id ∈ c.ids, id < m)
    {s s' : Arrays} {comps : List Held} (hc : arithCalls s calls = .ok (s', comps)) (hs : m ≤ s.next)
    (hD : ∀ id < m, s.data id = D id) :
    List.Forall₂ (Made D) calls comps ∧ s.next ≤ s'.next ∧ (∀ id < s.next, s'.data id = s.data id) ∧
    (∀ (k : Nat) h j, comps[k]? = some h → h.slot = some j →
      (j < m ∧ ∃ c : ArithCall, calls[k]? = some c ∧ (c.1 = .add ∨ c.1 = .mul) ∧ c.2.2 = .obj j) ∨
      (s.next ≤ j ∧ j < s'.next ∧ h.comp.array? = some (s'.data j))) ∧
    ∀ (k k' : Nat) h h' j, comps[k]? = some h → comps[k']? = some h' → h.slot = some j → h'.slot = some j → m ≤ j → k = k' := by
  induction calls generalizing s comps with
  | nil =>
    cases hc
    exact ⟨.nil, le_rfl, fun _ _ => rfl, fun k h j e => by simp at e, fun k k' h h' j e => by simp at e⟩
  | cons c calls ih =>
    obtain ⟨op, a, b⟩ := c
    simp only [arithCalls] at hc
    split at hc
    · cases hc
    · rename_i s₁ h₁ hcall
      cases hrec : arithCalls s₁ calls with
      | error e => rw [hrec] at hc; cases hc
      | ok r =>
        obtain ⟨s₂, hs₂⟩ := r
        rw [hrec] at hc
        simp only [Except.map, Except.ok.injEq, Prod.mk.injEq] at hc
        obtain ⟨rfl, rfl⟩ := hc
        obtain ⟨hmade, hstate⟩ := call_made hcall
        have hids : ∀ id ∈ ArithCall.ids (op, a, b), s.data id = D id :=
          fun id hid => hD id (hm _ (by simp) id hid)
        have hmade' : Made D (op, a, b) h₁ := by
          have e := read_congr hids
          cases hmade with
          | plain h hn => exact .plain (by rw [← e.1, ← e.2]; exact h) hn
          | add n sh id => rw [hids id (by simp [ArithCall.ids])]; exact .add n sh id
          | mul n sh id => rw [hids id (by simp [ArithCall.ids])]; exact .mul n sh id
          | sub n sh id j => rw [hids id (by simp [ArithCall.ids])]; exact .sub n sh id j
          | div n sh id j g1 g0 =>
            rw [hids id (by simp [ArithCall.ids])] at g0 ⊢
            exact .div n sh id j g1 g0
        have hnext : s.next ≤ s₁.next ∧ ∀ id < s.next, s₁.data id = s.data id := by
          rcases hstate with ⟨rfl, -⟩ | ⟨v, -, -, rfl⟩
          · exact ⟨le_rfl, fun _ _ => rfl⟩
          · exact ⟨Nat.le_succ _, fun id hid => Function.update_of_ne (Nat.ne_of_lt hid) _ _⟩
        obtain ⟨i1, i2, i3, i4, i5⟩ := ih (fun c hc => hm c (by simp [hc])) hrec (hs.trans hnext.1)
          (fun id hid => by rw [hnext.2 id (by omega), hD id hid])
        -- the slot of the first component
        have hfirst : ∀ j, h₁.slot = some j → (j < m ∧ (op = .add ∨ op = .mul) ∧ b = .obj j) ∨ (j = s.next ∧ s₁.next = s.next + 1 ∧
            h₁.comp.array? = some (s₁.data j)) := by
          intro j hj
          rcases hstate with ⟨-, hb⟩ | ⟨v, hv, hslot, rfl⟩
          · exact .inl ⟨hm _ (List.mem_cons_self ..) j (by rw [(hb j hj).1]; simp [ArithCall.ids]), (hb j hj).2, (hb j hj).1⟩
          · rw [hslot] at hj
            cases hj
            exact .inr ⟨rfl, rfl, by rw [hv]; simp⟩
        refine ⟨.cons hmade' i1, hnext.1.trans i2, fun id hid => by rw [i3 id (by omega), hnext.2 id hid], ?_, ?_⟩
        · intro k h j hk hj
          cases k with
          | zero =>
            simp only [List.getElem?_cons_zero, Option.some.injEq] at hk
            subst hk
            rcases hfirst j hj with hj' | ⟨rfl, hj', hv⟩
            · exact .inl ⟨hj'.1, _, rfl, hj'.2⟩
            · exact .inr ⟨le_rfl, by omega, by rw [hv, i3 _ (by omega)]⟩
          | succ k =>
            simp only [List.getElem?_cons_succ] at hk
            rcases i4 k h j hk hj with hj' | ⟨hj', hj'', hv⟩
            · exact .inl hj'
            · exact .inr ⟨by omega, hj'', hv⟩
        · intro k k' h h' j hk hk' hj hj' hmj
          cases k with
          | zero =>
            cases k' with
            | zero => rfl
            | succ k' =>
              simp only [List.getElem?_cons_zero, Option.some.injEq] at hk
              subst hk
              simp only [List.getElem?_cons_succ] at hk'
              rcases hfirst j hj with ⟨hlt, -⟩ | ⟨rfl, hx, -⟩
              · omega
              · rcases i4 k' h' _ hk' hj' with ⟨hlt, -⟩ | ⟨hge, -⟩ <;> omega
          | succ k =>
            cases k' with
            | zero =>
              simp only [List.getElem?_cons_zero, Option.some.injEq] at hk'
              subst hk'
              simp only [List.getElem?_cons_succ] at hk
              rcases hfirst j hj' with ⟨hlt, -⟩ | ⟨rfl, hx, -⟩
              · omega
              · rcases i4 k h _ hk hj with ⟨hlt, -⟩ | ⟨hge, -⟩ <;> omega
            | succ k' =>
              simp only [List.getElem?_cons_succ] at hk hk'
              rw [i5 k k' h h' j hk hk' hj hj' hmj]

/-- By what a use multiplies element `i` of the user's array `id`, the program consisting of the given calls. -/
noncomputable def userFactor (calls : List ArithCall) (id i : Nat) : ArithUse → ℝ
  | .compute _ _ => 1
  | .partials k inp =>
    match calls[k]? with
    | some (.mul, .var n _, .obj id') => if id' = id then inp n i else 1
    | _ => 1

/-- By what a use multiplies element `i` of the inverse held by the `k`-th component, a quotient of `n` and an array. -/
noncomputable def ownFactor (k : Nat) (n : String) (i : Nat) : ArithUse → ℝ
  | .compute _ _ => 1
  | .partials k' inp => if k' = k then inp n i else 1

theorem forall₂_getElem {α β : Type} {R : α → β → Prop} {l : List α} {l' : List β} (h : List.Forall₂ R l l') (k : Nat) :
    (l[k]? = none ∧ l'[k]? = none) ∨ ∃ a b, l[k]? = some a ∧ l'[k]? = some b ∧ R a b := by
  induction h generalizing k with
  | nil => exact .inl (by simp)
  | cons h hs ih =>
    cases k with
    | zero => exact .inr ⟨_, _, rfl, rfl, h⟩
    | succ k => simpa using ih k

theorem linearize_lin {h : Held} {c : Lin} (hc : h.comp = .lin c) (inp : String → Nat → ℝ) (data : Nat → Nat → ℝ) :
    h.linearize inp data = data := by
  obtain ⟨comp, slot⟩ := h
  cases hc
  cases slot <;> rfl

theorem linearize_pow {h : Held} {c : Pow} (hc : h.comp = .pow c) {j : Nat} (hj : h.slot = some j) {n : String}
    (ht : c.terms = [(n, .num 1)]) (inp : String → Nat → ℝ) (data : Nat → Nat → ℝ) :
    h.linearize inp data = Function.update data j fun i => data j i * inp n i := by
  obtain ⟨comp, slot⟩ := h
  cases hc
  cases hj
  simp only [Held.linearize, Held.now, ArithComp.withArray, Pow.mutate, ht, List.foldl_cons, List.foldl_nil, Power.at,
    Real.rpow_one]

/-- The arrays after any uses, for a program whose components are made as `arithCalls_made` says. -/
theorem uses_data {D : Nat → Nat → ℝ} {calls : List ArithCall} {comps : List Held} {m : Nat}
    (hm : ∀ c ∈ calls, ∀ id ∈ c.ids, id < m) (h1 : List.Forall₂ (Made D) calls comps)
    (hslot : ∀ (k : Nat) h j, comps[k]? = some h → h.slot = some j → j < m → ∃ c : ArithCall, calls[k]? = some c ∧
      (c.1 = .add ∨ c.1 = .mul) ∧ c.2.2 = .obj j)
    (h2 : ∀ (k k' : Nat) h h' j, comps[k]? = some h → comps[k']? = some h' → h.slot = some j → h'.slot = some j → m ≤ j → k = k')
    (data : Nat → Nat → ℝ) (us : List ArithUse) :
    (∀ id < m, ∀ i, usesArith comps data us id i = data id i * (us.map (userFactor calls id i)).prod) ∧
    (∀ (k : Nat) h j n sh id, comps[k]? = some h → h.slot = some j → m ≤ j → calls[k]? = some (.div, .var n sh, .obj id) →
      ∀ i, usesArith comps data us j i = data j i * (us.map (ownFactor k n i)).prod) ∧
    (∀ (k : Nat) h j n sh id, comps[k]? = some h → h.slot = some j → m ≤ j → calls[k]? = some (.sub, .var n sh, .obj id) →
      usesArith comps data us j = data j) := by
  induction us generalizing data with
  | nil => simp [usesArith]
  | cons u us ih =>
    obtain ⟨i1, i2, i3⟩ := ih (useArith comps data u)
    have hfold : usesArith comps data (u :: us) = usesArith comps (useArith comps data u) us := rfl
    rw [hfold]
    -- the effect of one use
    have hone : (∀ id < m, ∀ i, useArith comps data u id i = data id i * userFactor calls id i u) ∧
        (∀ (k : Nat) h j n sh id, comps[k]? = some h → h.slot = some j → m ≤ j → calls[k]? = some (.div, .var n sh, .obj id) →
          ∀ i, useArith comps data u j i = data j i * ownFactor k n i u) ∧
        (∀ (k : Nat) h j n sh id, comps[k]? = some h → h.slot = some j → m ≤ j → calls[k]? = some (.sub, .var n sh, .obj id) →
          useArith comps data u j = data j) := by
      cases u with
      | compute k inp => simp [useArith, userFactor, ownFactor]
      | partials k inp =>
        rcases forall₂_getElem h1 k with ⟨e1, e2⟩ | ⟨c, h, e1, e2, hmade⟩
        · refine ⟨fun id hid i => by simp [useArith, userFactor, e1, e2], ?_, fun _ _ _ _ _ _ _ _ _ _ => by
            simp [useArith, e2]⟩
          intro k' h' j n sh id hk' hj hmj hcall i
          have : k ≠ k' := by rintro rfl; rw [e2] at hk'; cases hk'
          simp [useArith, ownFactor, e2, this]
        · simp only [useArith, e2, userFactor, e1, ownFactor]
          cases hmade with
          | @plain op a b c hc hn =>
            have hsame : (Held.mk c none).linearize inp data = data := rfl
            refine ⟨fun id hid i => ?_, fun k' h' j n sh id hk' hj hmj hcall i => ?_, fun _ _ _ _ _ _ _ _ _ _ => by rw [hsame]⟩
            · have : ∀ n s id', ¬ ((op, a, b) : ArithCall) = (.mul, .var n s, .obj id') := by
                rintro n s id' e
                cases e
                simp [ArithOp.comp, ROperand.read, pyOperator, buildMul, PowOpts.setup, getPowersList, List.replicate,
                  Except.map] at hc
                subst hc
                simp [ArithComp.array?] at hn
              rw [hsame]
              split
              · rename_i n s id' e
                exact absurd (Option.some.inj e) (this _ _ _)
              · simp
            · have : k ≠ k' := by rintro rfl; rw [e2] at hk'; cases hk'; cases hj
              rw [hsame, if_neg this, mul_one]
          | add n sh id =>
            rw [linearize_lin rfl]
            refine ⟨fun id hid i => by simp, fun k' h' j n sh id hk' hj hmj hcall i => ?_, fun _ _ _ _ _ _ _ _ _ _ => rfl⟩
            have : k ≠ k' := by rintro rfl; rw [e1] at hcall; cases hcall
            rw [if_neg this, mul_one]
          | sub n sh id =>
            rw [linearize_lin rfl]
            refine ⟨fun id hid i => by simp, fun k' h' j n sh id hk' hj hmj hcall i => ?_, fun _ _ _ _ _ _ _ _ _ _ => rfl⟩
            have : k ≠ k' := by rintro rfl; rw [e1] at hcall; cases hcall
            rw [if_neg this, mul_one]
          | mul n sh id =>
            rw [linearize_pow rfl rfl rfl]
            have hid : id < m := hm _ (List.mem_of_getElem? e1) id (by simp [ArithCall.ids])
            refine ⟨fun id' hid' i => ?_, fun k' h' j n sh id' hk' hj hmj hcall i => ?_,
              fun k' h' j n sh id' hk' hj hmj hcall => Function.update_of_ne (by omega) _ _⟩
            · by_cases e : id = id'
              · subst e; simp
              · rw [Function.update_of_ne (Ne.symm e)]; simp [e]
            · have : k ≠ k' := by rintro rfl; rw [e1] at hcall; cases hcall
              rw [Function.update_of_ne (by omega), if_neg this, mul_one]
          | div n sh id j g1 g0 =>
            rw [linearize_pow rfl rfl rfl]
            have hj : m ≤ j := by
              by_contra hlt
              obtain ⟨c, hc, hop, -⟩ := hslot k _ j e2 rfl (by omega)
              rw [e1] at hc
              cases hc
              rcases hop with h | h <;> cases h
            refine ⟨fun id' hid' i => ?_, fun k' h' j' n' sh' id' hk' hj' hmj hcall i => ?_,
              fun k' h' j' n' sh' id' hk' hj' hmj hcall => ?_⟩
            · rw [Function.update_of_ne (by omega)]; simp
            · by_cases e : k = k'
              · subst e
                rw [e2] at hk'
                cases hk'
                cases hj'
                rw [e1] at hcall
                cases hcall
                simp
              · rw [if_neg e, mul_one, Function.update_of_ne]
                rintro rfl
                exact e (h2 k k' _ h' _ e2 hk' rfl hj' hmj)
            · rw [Function.update_of_ne]
              rintro rfl
              obtain rfl := h2 k k' _ h' _ e2 hk' rfl hj' hmj
              rw [e1] at hcall
              cases hcall
    refine ⟨fun id hid i => ?_, fun k h j n sh id hk hj hmj hcall i => ?_, fun k h j n sh id hk hj hmj hcall => ?_⟩
    · rw [i1 id hid i, hone.1 id hid i, List.map_cons, List.prod_cons, mul_assoc]
    · rw [i2 k h j n sh id hk hj hmj hcall i, hone.2.1 k h j n sh id hk hj hmj hcall i, List.map_cons, List.prod_cons,
        mul_assoc]
    · rw [i3 k h j n sh id hk hj hmj hcall, hone.2.2 k h j n sh id hk hj hmj hcall]

/-- **C82, exactly what happens.** In a program of operators, after any sequence of runs and requests for partials of its
components: an array of the user has been multiplied by the input of a product made with it each time the partials of that
product were asked for, and by nothing else. A sum and a product compute with the present contents of the array, a
difference with the contents it had first, a quotient with an inverse multiplied in the same way by its own requests, and
components without array are as they were made. -/
theorem c82_exact {calls : List ArithCall} {s s' : Arrays} {comps : List Held}
    (hids : ∀ c ∈ calls, ∀ id ∈ c.ids, id < s.next) (hc : arithCalls s calls = .ok (s', comps)) (us : List ArithUse) :
    let D := usesArith comps s'.data us
    (∀ id < s.next, ∀ i, D id i = s.data id i * (us.map (userFactor calls id i)).prod) ∧
    ∀ (k : Nat) c, calls[k]? = some c → ∃ h, comps[k]? = some h ∧
      (∀ n sh id, c = (.add, .var n sh, .obj id) → ∀ inp, ∃ r, (h.now D).compute inp = .ok r ∧
        ∀ i, r i = inp n i + D id i) ∧
      (∀ n sh id, c = (.mul, .var n sh, .obj id) → ∀ inp, ∃ r, (h.now D).compute inp = .ok r ∧
        ∀ i, r i = inp n i * D id i) ∧
      (∀ n sh id, c = (.sub, .var n sh, .obj id) → ∀ inp, ∃ r, (h.now D).compute inp = .ok r ∧
        ∀ i, r i = inp n i - s.data id i) ∧
      (∀ n sh id, c = (.div, .var n sh, .obj id) → ∀ inp, ∃ r, (h.now D).compute inp = .ok r ∧
        ∀ i, r i = inp n i * (1 / s.data id i * (us.map (ownFactor k n i)).prod)) ∧
      ((∀ id, c.2.2 ≠ .obj id) → h.now D = h.comp ∧
        c.1.comp (c.2.1.read s.data) (c.2.2.read s.data) = .ok (some h.comp)) := by
  intro D
  obtain ⟨m1, -, m3, m4, m5⟩ := arithCalls_made (D := s.data) hids hc le_rfl fun _ _ => rfl
  obtain ⟨d1, d2, d3⟩ := uses_data hids m1 (fun k h j hk hj hlt => by
    rcases m4 k h j hk hj with ⟨-, h⟩ | ⟨hge, -⟩
    · exact h
    · omega) m5 s'.data us
  refine ⟨fun id hid i => by rw [← m3 id hid]; exact d1 id hid i, ?_⟩
  intro k c hk
  rcases forall₂_getElem m1 k with ⟨e1, -⟩ | ⟨c', h, e1, e2, hmade⟩
  · rw [hk] at e1; cases e1
  · rw [hk] at e1
    cases e1
    have hfresh : ∀ j, h.slot = some j → (c.1 = .sub ∨ c.1 = .div) → s.next ≤ j ∧ h.comp.array? = some (s'.data j) := by
      intro j hj hop
      rcases m4 k h j e2 hj with ⟨-, c', hc', hop', -⟩ | ⟨h1, -, h3⟩
      · rw [hk] at hc'
        cases hc'
        rcases hop with h | h <;> rcases hop' with h' | h' <;> rw [h] at h' <;> cases h'
      · exact ⟨h1, h3⟩
    have hpass : ∀ (c : Pow) (n : String) (i : String → Nat → ℝ), c.terms = [(n, .num 1)] →
        ∀ t ∈ c.terms, Passes c i t := by
      intro c n i hc t ht _
      rw [hc, List.mem_singleton] at ht
      subst ht
      simp [zeroCheck]
    refine ⟨h, e2, ?_⟩
    cases hmade with
    | @plain op a b c hcomp hn =>
      have hno : ∀ n sh id, ¬ (a = .var n sh ∧ b = .obj id) := by
        rintro n sh id ⟨rfl, rfl⟩
        cases op <;> simp only [ArithOp.comp, ROperand.read, pyOperator, buildAdd, buildSub, buildMul, buildDiv] at hcomp
        · simp [LinOpts.setup, getScalarsList, List.replicate, Except.map] at hcomp
          subst hcomp; simp [ArithComp.array?] at hn
        · simp [LinOpts.setup, getScalarsList, List.replicate, Except.map, Const.neg] at hcomp
          subst hcomp; simp [ArithComp.array?] at hn
        · simp [PowOpts.setup, getPowersList, List.replicate, Except.map] at hcomp
          subst hcomp; simp [ArithComp.array?] at hn
        · by_cases h1 : prodShape sh = 1
          · by_cases h0 : s.data id 0 = 0
            · simp [h1, h0] at hcomp
            · simp [h1, h0, PowOpts.setup, getPowersList, List.replicate, Except.map] at hcomp
              subst hcomp; simp [ArithComp.array?] at hn
          · simp [h1] at hcomp
      refine ⟨?_, ?_, ?_, ?_, fun _ => ⟨rfl, hcomp⟩⟩ <;>
      · rintro n sh id e
        cases e
        exact absurd ⟨rfl, rfl⟩ (hno n sh id)
    | add n sh id =>
      refine ⟨?_, by simp, by simp, by simp, fun hb => absurd rfl (hb id)⟩
      rintro n' sh' id' e inp
      cases e
      refine ⟨_, rfl, fun i => ?_⟩
      simp [Held.now, ArithComp.withArray, Lin.compute, Const.at, add_comm]
    | mul n sh id =>
      refine ⟨by simp, ?_, by simp, by simp, fun hb => absurd rfl (hb id)⟩
      rintro n' sh' id' e inp
      cases e
      refine ⟨_, pow_compute (hpass _ n inp rfl), fun i => ?_⟩
      simp [Pow.value, Const.at, Power.at, mul_comm]
    | sub n sh id j =>
      refine ⟨by simp, by simp, ?_, by simp, fun hb => absurd rfl (hb id)⟩
      rintro n' sh' id' e inp
      cases e
      obtain ⟨f1, f2⟩ := hfresh j rfl (.inl rfl)
      have hD : D j = fun i => -s.data id i := by
        rw [show D j = s'.data j from d3 k _ j n sh id e2 rfl f1 hk]
        simpa [ArithComp.array?] using f2.symm
      refine ⟨_, rfl, fun i => ?_⟩
      simp [Held.now, ArithComp.withArray, Lin.compute, Const.at, hD]
      ring
    | div n sh id j g1 g0 =>
      refine ⟨by simp, by simp, by simp, ?_, fun hb => absurd rfl (hb id)⟩
      rintro n' sh' id' e inp
      cases e
      obtain ⟨f1, f2⟩ := hfresh j rfl (.inr rfl)
      refine ⟨_, pow_compute (hpass _ n inp rfl), fun i => ?_⟩
      have hD : D j i = 1 / s.data id i * (us.map (ownFactor k n i)).prod := by
        rw [show D j i = _ from d2 k _ j n sh id e2 rfl f1 hk i]
        congr 1
        simp only [ArithComp.array?, Option.some.injEq] at f2
        rw [← f2]
      simp only [Pow.value, Const.at, Power.at, List.map_cons, List.map_nil, List.prod_cons, List.prod_nil, Real.rpow_one,
        mul_one]
      rw [← hD, mul_comm]

/-- The mathematical operation. -/
noncomputable def ArithOp.apply : ArithOp → ℝ → ℝ → ℝ
  | .add, x, y => x + y
  | .sub, x, y => x - y
  | .mul, x, y => x * y
  | .div, x, y => x / y

/-- The number of elements of the output. -/
def ArithComp.size : ArithComp → Nat
  | .lin c => c.size
  | .pow c => c.size

/-- **C82** (partial): if no product and no quotient is made with an array, then whatever has been asked of the components,
the arrays of the user are as they were and every component computes its operator applied to the operands given.
Missing: products with an array, for which the claim is false (`c82_violated`), and quotients with an array, which change
themselves (`c82_exact`). -/
theorem c82_constants_partial {calls : List ArithCall} {s s' : Arrays} {comps : List Held}
    (hids : ∀ c ∈ calls, ∀ id ∈ c.ids, id < s.next) (hc : arithCalls s calls = .ok (s', comps))
    (hno : ∀ c ∈ calls, c.1 = .mul ∨ c.1 = .div → ∀ id, c.2.2 ≠ .obj id) (us : List ArithUse) :
    let D := usesArith comps s'.data us
    (∀ id < s.next, D id = s.data id) ∧
    ∀ (k : Nat) op a b, calls[k]? = some (op, a, b) → ∃ h, comps[k]? = some h ∧
      ∀ inp, (op = .div → ∀ i < h.comp.size, (b.read s.data).value inp i ≠ 0) →
        ∃ r, (h.now D).compute inp = .ok r ∧
          ∀ i, r i = op.apply ((a.read s.data).value inp i) ((b.read s.data).value inp i) := by
  intro D
  obtain ⟨h1, h2⟩ := c82_exact hids hc us
  have hD : ∀ id < s.next, D id = s.data id := by
    intro id hid
    funext i
    refine (h1 id hid i).trans ?_
    have : us.map (userFactor calls id i) = us.map fun _ => 1 := by
      apply List.map_congr_left
      intro u _
      cases u with
      | compute k inp => rfl
      | partials k inp =>
        simp only [userFactor]
        split
        · rename_i n sh id' e
          exact absurd rfl (hno _ (List.mem_of_getElem? e) (.inl rfl) id')
        · rfl
    rw [this]
    simp
  refine ⟨hD, fun k op a b hk => ?_⟩
  obtain ⟨h, e, k1, -, k3, -, k5⟩ := h2 k _ hk
  refine ⟨h, e, fun inp hz => ?_⟩
  by_cases hb : ∃ id, b = .obj id
  · obtain ⟨id, rfl⟩ := hb
    have hmem := List.mem_of_getElem? hk
    have hid : id < s.next := hids _ hmem id (by simp [ArithCall.ids])
    have ha : ∃ n sh, a = .var n sh := by
      have := forall₂_getElem (arithCalls_made (D := s.data) hids hc le_rfl fun _ _ => rfl).1 k
      rcases this with ⟨e1, -⟩ | ⟨c', h', e1, -, hmade⟩
      · rw [hk] at e1; cases e1
      · rw [hk] at e1
        cases e1
        cases hmade with
        | @plain _ _ _ c hcomp hn =>
          cases a with
          | var n sh => exact ⟨n, sh, rfl⟩
          | num x =>
            cases op <;> simp [ArithOp.comp, ROperand.read, pyOperator, buildAdd, buildSub, buildMul, buildDiv] at hcomp
          | obj x => cases op <;> simp [ArithOp.comp, ROperand.read, pyOperator] at hcomp
        | _ => exact ⟨_, _, rfl⟩
    obtain ⟨n, sh, rfl⟩ := ha
    cases op with
    | add =>
      obtain ⟨r, r1, r2⟩ := k1 n sh id rfl inp
      exact ⟨r, r1, fun i => by rw [r2, show usesArith comps s'.data us id = _ from hD id hid]; rfl⟩
    | sub =>
      obtain ⟨r, r1, r2⟩ := k3 n sh id rfl inp
      exact ⟨r, r1, fun i => by rw [r2]; rfl⟩
    | mul => exact absurd rfl (hno _ hmem (.inl rfl) id)
    | div => exact absurd rfl (hno _ hmem (.inr rfl) id)
  · obtain ⟨hnow, hcomp⟩ := k5 fun id e => hb ⟨id, e⟩
    rw [hnow]
    have hb' : ∀ x, b.read s.data ≠ .const (.arr x) := by
      intro x e
      cases b with
      | obj id => exact hb ⟨id, rfl⟩
      | _ => cases e
    have ha' : ∀ x, a.read s.data ≠ .const (.arr x) := by
      intro x e
      cases a with
      | obj id => cases op <;> simp [ArithOp.comp, ROperand.read, pyOperator] at hcomp
      | _ => cases e
    revert hcomp hz
    obtain ⟨comp, slot⟩ := h
    simp only
    generalize a.read s.data = A at ha' ⊢
    generalize b.read s.data = B at hb' ⊢
    intro hz hcomp
    cases op <;> simp only [ArithOp.comp] at hcomp <;> split at hcomp <;> (try cases hcomp) <;> rename_i o ho <;>
      cases hs : o.setup <;> rw [hs] at hcomp <;> simp only [Except.map, Except.ok.injEq, Option.some.injEq, reduceCtorEq] at hcomp <;>
      subst hcomp <;> rename_i c
    · exact ⟨_, rfl, (c26_add ho hs inp).1⟩
    · exact ⟨_, rfl, (c26_sub ho hs inp).1⟩
    · exact (c27_mul ha' hb' ho hs inp).1
    · exact (c27_div ha' hb' ho hs inp (hz rfl)).1

/-- The code violates C82, for any shape and inputs: of the components made for `x * a` and `z + a`, the second one
computes `z + a * x` once the partials of the first one have been asked for, and the array of the user has changed. -/
theorem c82_violated (x z : String) (sh : List Nat) (s : Arrays) (id : Nat) (hid : id < s.next) (inp inp' : String → Nat → ℝ) :
    ∃ s' c₀ c₁, arithCalls s [(.mul, .var x sh, .obj id), (.add, .var z sh, .obj id)] = .ok (s', [c₀, c₁]) ∧
      (∃ r, (c₁.now s'.data).compute inp' = .ok r ∧ ∀ i, r i = inp' z i + s.data id i) ∧
      let D := usesArith [c₀, c₁] s'.data [.partials 0 inp]
      (∀ i, D id i = s.data id i * inp x i) ∧
      ∃ r, (c₁.now D).compute inp' = .ok r ∧ ∀ i, r i = inp' z i + s.data id i * inp x i := by
  have hc : arithCalls s [(.mul, .var x sh, .obj id), (.add, .var z sh, .obj id)] =
      .ok (s, [⟨.pow ⟨prodShape sh, [(x, .num 1)], .arr (s.data id)⟩, some id⟩,
        ⟨.lin ⟨prodShape sh, [(z, 1)], .arr (s.data id)⟩, some id⟩]) := by
    simp [arithCalls, ArithOp.call, ArithOp.comp, ROperand.read, pyOperator, buildMul, buildAdd, PowOpts.setup, LinOpts.setup,
      getPowersList, getScalarsList, List.replicate, Except.map, ArithComp.array?]
  have hids : ∀ c ∈ [((.mul, .var x sh, .obj id) : ArithCall), (.add, .var z sh, .obj id)], ∀ j ∈ ArithCall.ids c, j < s.next := by
    intro c hc' j hj
    simp only [List.mem_cons, List.not_mem_nil, or_false] at hc'
    rcases hc' with rfl | rfl <;> · simp [ArithCall.ids] at hj; omega
  refine ⟨_, _, _, hc, ?_, ?_, ?_⟩
  · obtain ⟨-, h⟩ := c82_exact hids hc []
    obtain ⟨h, e, h1, -⟩ := h 1 _ rfl
    cases e
    exact h1 z sh id rfl inp'
  · intro i
    rw [(c82_exact hids hc [.partials 0 inp]).1 id hid i]
    simp [userFactor]
  · obtain ⟨h0, h⟩ := c82_exact hids hc [.partials 0 inp]
    obtain ⟨h, e, h1, -⟩ := h 1 _ rfl
    cases e
    obtain ⟨r, r1, r2⟩ := h1 z sh id rfl inp'
    refine ⟨r, r1, fun i => ?_⟩
    rw [r2, h0 id hid i]
    simp [userFactor]

/-- **C28, exactly what happens** with an array as coefficient: after any uses of the component of `x * a`, it computes
`x * a` times all inputs at which its partials were asked for. -/
theorem c28_exact (x : String) (sh : List Nat) (s : Arrays) (id : Nat) (hid : id < s.next) (us : List (String → Nat → ℝ))
    (inp : String → Nat → ℝ) :
    ∃ s' c, arithCalls s [(.mul, .var x sh, .obj id)] = .ok (s', [c]) ∧
      ∃ r, (c.now (usesArith [c] s'.data (us.map (.partials 0)))).compute inp = .ok r ∧
        ∀ i, r i = inp x i * (s.data id i * (us.map fun u => u x i).prod) := by
  have hc : arithCalls s [(.mul, .var x sh, .obj id)] =
      .ok (s, [⟨.pow ⟨prodShape sh, [(x, .num 1)], .arr (s.data id)⟩, some id⟩]) := by
    simp [arithCalls, ArithOp.call, ArithOp.comp, ROperand.read, pyOperator, buildMul, PowOpts.setup,
      getPowersList, List.replicate, Except.map, ArithComp.array?]
  have hids : ∀ c ∈ [((.mul, .var x sh, .obj id) : ArithCall)], ∀ j ∈ ArithCall.ids c, j < s.next := by
    intro c hc' j hj
    simp only [List.mem_singleton] at hc'
    subst hc'
    simp [ArithCall.ids] at hj
    omega
  refine ⟨_, _, hc, ?_⟩
  obtain ⟨h0, h⟩ := c82_exact hids hc (us.map (.partials 0))
  obtain ⟨h, e, -, h2, -⟩ := h 0 _ rfl
  cases e
  obtain ⟨r, r1, r2⟩ := h2 x sh id rfl inp
  refine ⟨r, r1, fun i => ?_⟩
  rw [r2, h0 id hid i, List.map_map]
  congr 3
  apply List.map_congr_left
  intro u _
  simp [userFactor]

/-- `y = x + a`, `w = y - a`, `v = 2 * w` with one array: the hypotheses of `c82_constants_partial` hold. -/
example : ∃ s' comps, arithCalls ⟨fun _ i => i, 1⟩ [(.add, .var "x" [3], .obj 0), (.sub, .var "y" [3], .obj 0),
      (.mul, .num 2, .var "w" [3])] = .ok (s', comps) ∧
    ∀ us, usesArith comps s'.data us 0 = fun i : Nat => (i : ℝ) := by
  obtain ⟨s', comps, hc⟩ : ∃ s' comps, arithCalls ⟨fun _ i => i, 1⟩ [(.add, .var "x" [3], .obj 0), (.sub, .var "y" [3], .obj 0),
      (.mul, .num 2, .var "w" [3])] = .ok (s', comps) := by
    simp [arithCalls, ArithOp.call, ArithOp.comp, ROperand.read, pyOperator, buildMul, buildAdd, buildSub, PowOpts.setup,
      LinOpts.setup, getPowersList, getScalarsList, List.replicate, Except.map, ArithComp.array?, Const.neg]
  refine ⟨s', comps, hc, fun us => ?_⟩
  refine (c82_constants_partial (by simp [ArithCall.ids]) hc ?_ us).1 0 (by simp)
  intro c hc' hop id e
  simp only [List.mem_cons, List.not_mem_nil, or_false] at hc'
  rcases hc' with rfl | rfl | rfl <;> simp at hop e

end OM
