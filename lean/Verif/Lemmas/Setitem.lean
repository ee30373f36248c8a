import Verif.Props.Getitem
import Mathlib.Data.List.Induction

namespace OM
open Spec

/-! ## Uniqueness of selections -/

theorem itemSelects_unique {n : Nat} {e : KeyItem} {l l' : List Nat} (h : ItemSelects n e l)
    (h' : ItemSelects n e l') : l = l' := by
  cases e with
  | int k => rw [h.2.2, h'.2.2]
  | slice a b s =>
    exact (List.map_inj_right (fun x y h => by simpa using h)).1 (isRange_unique h h')

theorem keySelects_unique {shape : List Nat} {es : List KeyItem} {s s' : List (List Nat)}
    (h : KeySelects shape es s) (h' : KeySelects shape es s') : s = s' := by
  induction h generalizing s' with
  | nil => cases h'; rfl
  | cons h1 _ ih =>
    cases h' with
    | cons h1' h2' => rw [itemSelects_unique h1 h1', ih h2']

theorem isBlock_unique {shape : List Nat} {sels : List (List Nat)} {a b : List Nat}
    (ha : IsBlock shape sels a) (hb : IsBlock shape sels b) : a = b := by
  apply List.ext_getElem?
  intro k
  by_cases hk : k < prodShape (sels.map List.length)
  · have h1 := ha.entry _ (unravel_inBounds hk)
    have h2 := hb.entry _ (unravel_inBounds hk)
    rw [ravel_unravel hk] at h1 h2
    rw [h1, h2]
  · rw [List.getElem?_eq_none (by rw [ha.size]; omega), List.getElem?_eq_none (by rw [hb.size]; omega)]

theorem pyRange_nodup {a b k : Int} (hk : k ≠ 0) : (pyRange a b k).Nodup := by
  unfold pyRange
  refine List.nodup_range.map fun x y hxy => ?_
  have : (x : Int) * k = y * k := by simpa using hxy
  exact_mod_cast mul_right_cancel₀ hk this

theorem checkedRange_nodup {a b k : Int} {l : List Int} (h : checkedRange a b k = .ok l) : l.Nodup := by
  obtain ⟨h1, h2, _⟩ := checkedRange_ok h
  rw [h2]
  exact pyRange_nodup h1

/-! ## Target indices -/

theorem tgtLists_sound {shape : List Nat} {es : List KeyItem} {ls : List (List Int)}
    (h : tgtLists shape es = .ok ls)
    (hb : List.Forall₂ (fun l (n : Nat) => ∀ i ∈ l, 0 ≤ i ∧ i < (n : Int)) ls shape) :
    KeySelects shape es (ls.map (List.map Int.toNat)) ∧ ∀ l ∈ ls, l.Nodup := by
  induction shape generalizing es ls with
  | nil =>
    cases hb
    cases es with
    | nil => exact ⟨.nil, by simp⟩
    | cons e es => cases h
  | cons n ns ih =>
    obtain ⟨l, ls', h1, h2, rfl⟩ := List.forall₂_cons_right_iff.1 hb
    cases es with
    | nil => cases h
    | cons e es =>
      have hmap := map_ofNat_toNat (l := l) fun i hi => (h1 i hi).1
      cases e with
      | int k =>
        simp only [tgtLists] at h
        cases hl : sliceToList (some k) (some (k + 1)) none (some n) with
        | error e => rw [hl] at h; cases h
        | ok l0 =>
          rw [hl] at h
          simp only at h
          cases ht : tgtLists ns es with
          | error e => rw [ht] at h; cases h
          | ok r =>
            rw [ht] at h
            cases h
            obtain ⟨i1, i2⟩ := ih ht h2
            obtain ⟨hb0, hc⟩ := sliceToList_ok hl
            simp only [Option.getD_some, Option.getD_none] at hc
            obtain ⟨-, hl2, hne, -, hk0, -⟩ := checkedRange_ok hc
            have hcs : codeStop n (some (k + 1)) = k + 1 := by
              unfold codeStop; simp only; rw [if_neg (by omega)]
            rw [hcs] at hl2
            have hr : IsRange k (k + 1) 1 [k] :=
              ⟨fun i hi => by
                have : i = 0 := by simpa using hi
                subst this; simp, by simp, by simp⟩
            have hl' : l = [k] := by
              rw [hl2]; exact isRange_unique (pyRange_isRange k (k + 1) 1 (by decide)) hr
            subst hl'
            have := h1 k (by simp)
            refine ⟨.cons ⟨this.1, this.2, rfl⟩ i1, ?_⟩
            intro l hl
            rcases List.mem_cons.1 hl with rfl | hl
            · simp
            · exact i2 l hl
      | slice a b s =>
        simp only [tgtLists] at h
        cases hl : sliceToList a b s (some n) with
        | error e => rw [hl] at h; cases h
        | ok l0 =>
          rw [hl] at h
          simp only at h
          cases ht : tgtLists ns es with
          | error e => rw [ht] at h; cases h
          | ok r =>
            rw [ht] at h
            cases h
            obtain ⟨i1, i2⟩ := ih ht h2
            obtain ⟨hb0, hc⟩ := sliceToList_ok hl
            refine ⟨.cons ?_ i1, ?_⟩
            · show Selects n a b (s.getD 1) _
              rw [hmap]
              exact sliceToList_selects hb0 hc fun x hx => (h1 x hx).2
            · intro l hl
              rcases List.mem_cons.1 hl with rfl | hl
              · exact checkedRange_nodup hc
              · exact i2 l hl

/-- Facts about the indices of an assignment. -/
structure TgtFacts (shape : List Nat) (key : Key) (s : List Nat) (idx : List Int) : Prop where
  nodup : idx.Nodup
  size : idx.length = prodShape s
  nonneg : (∀ k, key = .one (.int k) → 0 ≤ k) → ∀ i ∈ idx, 0 ≤ i
  tuple : ∀ es, key = .tuple es → ∃ sels, KeySelects shape es sels ∧ s = sels.map List.length ∧
    IsBlock shape sels (idx.map Int.toNat) ∧ ∀ i ∈ idx, i < prodShape shape

theorem tgtIndices_facts {shape : List Nat} {key : Key} {s : List Nat} {idx : List Int}
    (h : tgtIndices shape key = .ok (s, idx)) : TgtFacts shape key s idx := by
  cases key with
  | tuple es =>
    unfold tgtIndices at h
    simp only at h
    cases hl : tgtLists shape es with
    | error e => rw [hl] at h; cases h
    | ok ls =>
      rw [hl] at h
      simp only at h
      cases hg : ravelGrid shape ls with
      | error e => rw [hg] at h; cases h
      | ok r =>
        rw [hg] at h
        cases h
        obtain ⟨hb, rfl⟩ := ravelGrid_ok hg
        obtain ⟨s1, s2⟩ := tgtLists_sound hl hb
        have hin : List.Forall₂ (fun l n => ∀ i ∈ l, i < n) (ls.map (List.map Int.toNat)) shape := by
          rw [List.forall₂_map_left_iff]
          refine hb.imp fun l n hln i hi => ?_
          obtain ⟨x, hx, rfl⟩ := List.mem_map.1 hi
          have := hln x hx
          omega
        have hnn : ∀ l ∈ ls, ∀ i ∈ l, 0 ≤ i := by
          intro l hl i hi
          obtain ⟨n, hn⟩ := List.mem_iff_getElem.1 hl
          obtain ⟨hn1, rfl⟩ := hn
          have := (List.forall₂_iff_get.1 hb).2 n hn1 (by rw [← hb.length_eq]; exact hn1)
          exact (this i hi).1
        have hnd : ∀ l ∈ ls.map (List.map Int.toNat), l.Nodup := by
          intro l hl
          obtain ⟨l0, hl0, rfl⟩ := List.mem_map.1 hl
          rw [List.nodup_map_iff_inj_on (s2 l0 hl0)]
          intro a ha b hb hab
          have := hnn l0 hl0 a ha
          have := hnn l0 hl0 b hb
          omega
        refine ⟨?_, ?_, ?_, ?_⟩
        · exact (grid_nodup hin hnd).map fun a b hab => by simpa using hab
        · rw [List.length_map, List.length_map, cartesian_length, List.map_map]
          congr 1
          apply List.map_congr_left
          intro l _; simp
        · intro _ i hi
          obtain ⟨x, _, rfl⟩ := List.mem_map.1 hi
          exact Int.natCast_nonneg x
        · intro es' he
          cases he
          refine ⟨_, s1, by simp, ?_, ?_⟩
          · have : ((List.map (ravel shape) (cartesian (ls.map (List.map Int.toNat)))).map
                Int.ofNat).map Int.toNat =
                (cartesian (ls.map (List.map Int.toNat))).map (ravel shape) := by
              rw [List.map_map]
              conv_rhs => rw [← List.map_id (List.map (ravel shape) _)]
              apply List.map_congr_left
              intro i _; simp
            rw [this]
            exact isBlock_grid _ _
          · intro i hi
            obtain ⟨x, hx, rfl⟩ := List.mem_map.1 hi
            obtain ⟨y, hy, rfl⟩ := List.mem_map.1 hx
            have := ravel_lt (grid_inBounds hin hy)
            show (ravel shape y : Int) < _
            exact_mod_cast this
  | one e =>
    cases e with
    | int k =>
      cases h
      exact ⟨by simp, by simp [prodShape], fun h i hi => by
        have : i = k := by simpa using hi
        rw [this]; exact h k rfl, fun es he => by cases he⟩
    | slice a b st =>
      unfold tgtIndices at h
      cases shape with
      | nil => cases h
      | cons n ns =>
        simp only at h
        cases hl : sliceToList a b st (some n) with
        | error e => rw [hl] at h; cases h
        | ok l =>
          rw [hl] at h
          cases h
          obtain ⟨hb0, hc⟩ := sliceToList_ok hl
          exact ⟨checkedRange_nodup hc, by simp [prodShape],
            fun _ => (checkedRange_ok hc).2.2.2.1, fun es he => by cases he⟩

/-! ## One assignment -/

/-- All that can happen in one assignment. -/
inductive SetOutcome (v : OVar) (key : Key) (name : String) (shape : List Nat) :
    OVar × Option PyErr → Prop
  /-- refused without a trace -/
  | refused (e : PyErr) : SetOutcome v key name shape (v, some e)
  /-- refused because of overlapping indices, which were recorded nevertheless -/
  | overlap (idx : List Int) (h : tgtIndices v.shape key = .ok (shape, idx))
      (hr : ∀ i ∈ idx, i < prodShape v.shape) (hn : ∀ p ∈ v.tgt, p.1 ≠ name)
      (ho : ∃ i ∈ idx, i ∈ v.checked) :
      SetOutcome v key name shape
        ({ v with tgt := v.tgt ++ [(name, shape, idx)], checked := v.checked ++ idx }, some .valueError)
  | accepted (idx : List Int) (h : tgtIndices v.shape key = .ok (shape, idx))
      (hr : ∀ i ∈ idx, i < prodShape v.shape) (hn : ∀ p ∈ v.tgt, p.1 ≠ name)
      (ho : ∀ i ∈ idx, i ∉ v.checked) :
      SetOutcome v key name shape
        ({ v with tgt := v.tgt ++ [(name, shape, idx)], checked := v.checked ++ idx, built := true },
          none)

theorem setItem_outcome (v : OVar) (key : Key) (name : String) (shape : List Nat) :
    SetOutcome v key name shape (setItemIdx v key name shape) := by
  unfold setItemIdx
  cases ht : tgtIndices v.shape key with
  | error e => exact .refused e
  | ok r =>
    obtain ⟨s, idx⟩ := r
    simp only
    split
    · exact .refused _
    · rename_i hs
      have hs' : s = shape := by simpa using hs
      subst hs'
      split
      · exact .refused _
      · rename_i hr
        split
        · exact .refused _
        · rename_i hn
          have hr' : ∀ i ∈ idx, i < prodShape v.shape := by
            intro i hi
            by_contra hge
            exact hr ⟨i, hi, by omega⟩
          have hn' : ∀ p ∈ v.tgt, p.1 ≠ name := fun p hp he => hn ⟨p, hp, he⟩
          split
          · rename_i ho
            exact .overlap idx ht hr' hn' ho
          · rename_i ho
            exact .accepted idx ht hr' hn' fun i hi hm => ho ⟨i, hi, hm⟩

/-! ## Histories -/

theorem assigns_append (v : OVar) (a b : List Assign) : assigns v (a ++ b) = assigns (assigns v a) b := by
  simp [assigns, List.foldl_append]

theorem assigns_snoc (v : OVar) (as : List Assign) (a : Assign) :
    assigns v (as ++ [a]) = (setItemIdx (assigns v as) a.1 a.2.1 a.2.2).1 := by
  simp [assigns, List.foldl_append]

theorem setItem_shape (v : OVar) (key : Key) (name : String) (shape : List Nat) :
    (setItemIdx v key name shape).1.shape = v.shape := by
  have h := setItem_outcome v key name shape
  generalize setItemIdx v key name shape = r at h
  cases h <;> rfl

theorem setItem_grows (v : OVar) (key : Key) (name : String) (shape : List Nat) :
    ∃ m c, (setItemIdx v key name shape).1.tgt = v.tgt ++ m ∧
      (setItemIdx v key name shape).1.checked = v.checked ++ c := by
  have h := setItem_outcome v key name shape
  generalize setItemIdx v key name shape = r at h
  cases h
  · exact ⟨[], [], by simp⟩
  · exact ⟨_, _, rfl, rfl⟩
  · exact ⟨_, _, rfl, rfl⟩

theorem assigns_shape (v : OVar) (as : List Assign) : (assigns v as).shape = v.shape := by
  induction as generalizing v with
  | nil => rfl
  | cons a as ih => exact (ih _).trans (setItem_shape v _ _ _)

theorem assigns_grows (v : OVar) (as : List Assign) :
    ∃ m c, (assigns v as).tgt = v.tgt ++ m ∧ (assigns v as).checked = v.checked ++ c := by
  induction as generalizing v with
  | nil => exact ⟨[], [], by simp [assigns]⟩
  | cons a as ih =>
    obtain ⟨m, c, h1, h2⟩ := setItem_grows v a.1 a.2.1 a.2.2
    obtain ⟨m', c', h1', h2'⟩ := ih (setItemIdx v a.1 a.2.1 a.2.2).1
    refine ⟨m ++ m', c ++ c', ?_, ?_⟩
    · show (assigns (setItemIdx v a.1 a.2.1 a.2.2).1 as).tgt = _
      rw [h1', h1, List.append_assoc]
    · show (assigns (setItemIdx v a.1 a.2.1 a.2.2).1 as).checked = _
      rw [h2', h2, List.append_assoc]

/-- The assignment `a`, made after the assignments `pre`, did not raise. -/
def AcceptedAt (shape : List Nat) (pre : List Assign) (a : Assign) : Prop :=
  (setItemIdx (assigns (OVar.new shape) pre) a.1 a.2.1 a.2.2).2 = none

/-- Every assignment of the history that raised left the output unchanged. -/
def NoTrace (shape : List Nat) (as : List Assign) : Prop :=
  ∀ pre a post, as = pre ++ a :: post → ¬ AcceptedAt shape pre a →
    (setItemIdx (assigns (OVar.new shape) pre) a.1 a.2.1 a.2.2).1 = assigns (OVar.new shape) pre

theorem accepted_entry {shape : List Nat} {pre : List Assign} {a : Assign}
    (h : AcceptedAt shape pre a) :
    ∃ idx, tgtIndices shape a.1 = .ok (a.2.2, idx) ∧ (∀ i ∈ idx, i < prodShape shape) ∧
      (∀ p ∈ (assigns (OVar.new shape) pre).tgt, p.1 ≠ a.2.1) ∧
      (∀ i ∈ idx, i ∉ (assigns (OVar.new shape) pre).checked) ∧
      (assigns (OVar.new shape) (pre ++ [a])).tgt =
        (assigns (OVar.new shape) pre).tgt ++ [(a.2.1, a.2.2, idx)] ∧
      (assigns (OVar.new shape) (pre ++ [a])).checked =
        (assigns (OVar.new shape) pre).checked ++ idx := by
  have hs : (assigns (OVar.new shape) pre).shape = shape := assigns_shape _ _
  rw [assigns_snoc]
  unfold AcceptedAt at h
  have ho := setItem_outcome (assigns (OVar.new shape) pre) a.1 a.2.1 a.2.2
  generalize setItemIdx (assigns (OVar.new shape) pre) a.1 a.2.1 a.2.2 = r at *
  cases ho with
  | refused e => cases h
  | overlap => cases h
  | accepted idx h1 h2 h3 h4 =>
    rw [hs] at h1 h2
    exact ⟨idx, h1, h2, h3, h4, rfl, rfl⟩

/-- `checked_indices` are the recorded indices. -/
theorem assigns_checked (shape : List Nat) (as : List Assign) :
    (assigns (OVar.new shape) as).checked =
      (assigns (OVar.new shape) as).tgt.flatMap fun p => p.2.2 := by
  induction as using List.reverseRecOn with
  | nil => rfl
  | append_singleton as a ih =>
    rw [assigns_snoc]
    have ho := setItem_outcome (assigns (OVar.new shape) as) a.1 a.2.1 a.2.2
    generalize setItemIdx (assigns (OVar.new shape) as) a.1 a.2.1 a.2.2 = r at *
    cases ho with
    | refused e => exact ih
    | overlap idx => simp [ih]
    | accepted idx => simp [ih]

theorem noTrace_prefix {shape : List Nat} {as : List Assign} {a : Assign}
    (h : NoTrace shape (as ++ [a])) : NoTrace shape as := by
  intro pre b post he
  exact h pre b (post ++ [a]) (by simp [he])

/-- Without traces of refused assignments, the recorded entries are those of accepted assignments and
their indices are pairwise different. -/
theorem assigns_tgt {shape : List Nat} {as : List Assign} (h : NoTrace shape as) :
    ((assigns (OVar.new shape) as).tgt.flatMap fun p => p.2.2).Nodup ∧
    ∀ p, p ∈ (assigns (OVar.new shape) as).tgt ↔
      ∃ pre a post idx, as = pre ++ a :: post ∧ AcceptedAt shape pre a ∧
        tgtIndices shape a.1 = .ok (a.2.2, idx) ∧ p = (a.2.1, a.2.2, idx) := by
  induction as using List.reverseRecOn with
  | nil =>
    refine ⟨by simp [assigns, OVar.new], fun p => ⟨fun hp => by simp [assigns, OVar.new] at hp, ?_⟩⟩
    rintro ⟨pre, a, post, idx, he, _⟩
    simp at he
  | append_singleton as a ih =>
    obtain ⟨i1, i2⟩ := ih (noTrace_prefix h)
    by_cases hacc : AcceptedAt shape as a
    · obtain ⟨idx, h1, h2, h3, h4, h5, h6⟩ := accepted_entry hacc
      have hck := assigns_checked shape as
      constructor
      · rw [h5, List.flatMap_append, List.nodup_append]
        refine ⟨i1, ?_, ?_⟩
        · simpa using (tgtIndices_facts h1).nodup
        · intro x hx y hy hxy
          subst hxy
          refine h4 x (by simpa using hy) ?_
          rw [hck]; exact hx
      · intro p
        rw [h5, List.mem_append, i2]
        constructor
        · rintro (⟨pre, b, post, idx', he, hb⟩ | hp)
          · exact ⟨pre, b, post ++ [a], idx', by simp [he], hb⟩
          · exact ⟨as, a, [], idx, rfl, hacc, h1, by simpa using hp⟩
        · rintro ⟨pre, b, post, idx', he, hb, hb', rfl⟩
          rcases List.eq_nil_or_concat post with rfl | ⟨post', c, rfl⟩
          · right
            have := List.append_inj' he rfl
            obtain ⟨rfl, hab⟩ := this
            have hab' : a = b := by simpa using hab
            subst hab'
            rw [h1] at hb'
            cases hb'
            simp
          · left
            have he' : as ++ [a] = (pre ++ b :: post') ++ [c] := by simpa using he
            have := List.append_inj' he' rfl
            exact ⟨pre, b, post', idx', this.1, hb, hb', rfl⟩
    · have hno := h as a [] rfl hacc
      rw [assigns_snoc, hno]
      refine ⟨i1, fun p => ?_⟩
      rw [i2]
      constructor
      · rintro ⟨pre, b, post, idx', he, hb⟩
        exact ⟨pre, b, post ++ [a], idx', by simp [he], hb⟩
      · rintro ⟨pre, b, post, idx', he, hb, hb', rfl⟩
        rcases List.eq_nil_or_concat post with rfl | ⟨post', c, rfl⟩
        · have := List.append_inj' he rfl
          obtain ⟨rfl, hab⟩ := this
          have hab' : a = b := by simpa using hab
          subst hab'
          exact absurd hb hacc
        · have he' : as ++ [a] = (pre ++ b :: post') ++ [c] := by simpa using he
          have := List.append_inj' he' rfl
          exact ⟨pre, b, post', idx', this.1, hb, hb', rfl⟩

/-! ## The component -/

theorem writeBlock {α : Type} (f : Nat → α) (idx : List Int) (m : Nat) (out : Nat → α)
    (hnn : ∀ i ∈ idx, 0 ≤ i) (hnd : idx.Nodup) :
    (∀ (k : Nat) (h : k < idx.length),
      ((idx.zipIdx m).foldl (fun out q => Function.update out q.1.toNat (f q.2)) out) idx[k].toNat =
        f (m + k)) ∧
    ∀ i : Nat, (i : Int) ∉ idx →
      ((idx.zipIdx m).foldl (fun out q => Function.update out q.1.toNat (f q.2)) out) i = out i := by
  induction idx generalizing m out with
  | nil => simp
  | cons a idx ih =>
    obtain ⟨hna, hnd'⟩ := List.nodup_cons.1 hnd
    obtain ⟨i1, i2⟩ := ih (m + 1) (Function.update out a.toNat (f m))
      (fun i hi => hnn i (by simp [hi])) hnd'
    have ha := hnn a (by simp)
    constructor
    · intro k hk
      simp only [List.zipIdx_cons, List.foldl_cons]
      cases k with
      | zero =>
        simp only [List.getElem_cons_zero, Nat.add_zero]
        rw [i2 a.toNat (by simpa [ha] using hna)]
        simp
      | succ k =>
        simp only [List.getElem_cons_succ]
        rw [i1 k (by simpa using hk)]
        congr 1; omega
    · intro i hi
      simp only [List.zipIdx_cons, List.foldl_cons]
      have h1 : (i : Int) ≠ a := fun h => hi (by simp [h])
      rw [i2 i (fun h => hi (by simp [h])), Function.update_of_ne]
      omega

theorem indexedPassThrough_spec {α : Type} (x : String → Nat → α)
    (tgt : List (String × List Nat × List Int)) (out : Nat → α)
    (hnn : ∀ p ∈ tgt, ∀ i ∈ p.2.2, 0 ≤ i) (hnd : (tgt.flatMap fun p => p.2.2).Nodup) :
    ∃ r, indexedPassThrough tgt x out = .ok r ∧
      (∀ p ∈ tgt, ∀ (k : Nat) (h : k < p.2.2.length), r p.2.2[k].toNat = x p.1 k) ∧
      ∀ i : Nat, (∀ p ∈ tgt, (i : Int) ∉ p.2.2) → r i = out i := by
  induction tgt generalizing out with
  | nil => exact ⟨out, rfl, by simp, by simp⟩
  | cons p tgt ih =>
    rw [List.flatMap_cons, List.nodup_append] at hnd
    obtain ⟨n1, n2, n3⟩ := hnd
    obtain ⟨w1, w2⟩ := writeBlock (x p.1) p.2.2 0 out (hnn p (by simp)) n1
    obtain ⟨r, h1, h2, h3⟩ := ih ((p.2.2.zipIdx).foldl
      (fun out q => Function.update out q.1.toNat (x p.1 q.2)) out)
      (fun q hq => hnn q (by simp [hq])) n2
    refine ⟨r, ?_, ?_, ?_⟩
    · unfold indexedPassThrough at h1 ⊢
      rw [List.foldlM_cons, if_neg]
      · exact h1
      · rintro ⟨i, hi, hlt⟩
        have := hnn p (by simp) i hi
        omega
    · intro q hq k hk
      rcases List.mem_cons.1 hq with rfl | hq
      · have hkn := hnn q (by simp) _ (List.getElem_mem hk)
        rw [h3, w1 k hk, Nat.zero_add]
        intro p' hp' hm
        have hm' : q.2.2[k] ∈ p'.2.2 := by
          rwa [show ((q.2.2[k].toNat : Nat) : Int) = q.2.2[k] by omega] at hm
        exact n3 _ (List.getElem_mem hk) _ (List.mem_flatMap.2 ⟨p', hp', hm'⟩) rfl
      · exact h2 q hq k hk
    · intro i hi
      rw [h3 i fun q hq => hi q (by simp [hq]), w2 i (hi p (by simp))]

end OM
