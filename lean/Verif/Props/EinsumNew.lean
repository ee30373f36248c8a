import Verif.Props.EinsumSparse
import Verif.Lemmas.EinsumRename

/-! # einsum with tuples of labels (C46) -/

namespace OM
open Spec

section
variable {α : Type} [DecidableEq α]

/-- The letters are given out in order. -/
structure LetterMap (m : List (α × Char)) (u : List Char) : Prop where
  letters : m.map Prod.snd ++ u = alphabet
  keys : (m.map Prod.fst).Nodup

def letterOf (m : List (α × Char)) (x : α) : Char := (m.lookup x).getD ' '

theorem lookup_eq_none_iff {m : List (α × Char)} {x : α} : m.lookup x = none ↔ x ∉ m.map Prod.fst := by
  induction m with
  | nil => simp
  | cons p m ih =>
    rw [List.lookup_cons]
    by_cases h : x = p.1
    · simp [h]
    · have hb : (x == p.1) = false := by simpa using h
      simp [hb, h, ih]

theorem lookup_append_some {m m' : List (α × Char)} {x : α} {ch : Char} (h : m.lookup x = some ch) :
    (m ++ m').lookup x = some ch := by
  rw [List.lookup_append, h]; rfl

theorem assignLetters_ok {m : List (α × Char)} {u : List Char} {xs : List α} (hm : LetterMap m u)
    {m' : List (α × Char)} {u' l : List Char} (h : assignLetters m u xs = .ok (m', u', l)) :
    LetterMap m' u' ∧ m <+: m' ∧ l = xs.map (letterOf m') ∧
      ∀ x, x ∈ m'.map Prod.fst ↔ x ∈ m.map Prod.fst ∨ x ∈ xs := by
  induction xs generalizing m u l with
  | nil =>
    rw [assignLetters] at h
    cases h
    exact ⟨hm, List.prefix_refl _, rfl, by simp⟩
  | cons x xs ih =>
    simp only [assignLetters] at h
    split at h
    · rename_i ch hl
      split at h
      · cases h
      · rename_i m1 u1 l1 h1
        cases h
        obtain ⟨i1, i2, i3, i4⟩ := ih hm h1
        refine ⟨i1, i2, ?_, fun y => ?_⟩
        · obtain ⟨t, rfl⟩ := i2
          rw [List.map_cons, i3, letterOf, lookup_append_some hl]; rfl
        · rw [i4 y, List.mem_cons]
          have hx : x ∈ m.map Prod.fst := by
            by_contra hno
            rw [lookup_eq_none_iff.2 hno] at hl
            cases hl
          constructor
          · rintro (h | h)
            · exact .inl h
            · exact .inr (.inr h)
          · rintro (h | rfl | h)
            · exact .inl h
            · exact .inl hx
            · exact .inr h
    · rename_i hl
      split at h
      · cases h
      · rename_i ch un
        split at h
        · cases h
        · rename_i m1 u1 l1 h1
          cases h
          have hx := lookup_eq_none_iff.1 hl
          have hm' : LetterMap (m ++ [(x, ch)]) un := by
            refine ⟨by rw [← hm.letters]; simp, ?_⟩
            rw [List.map_append, List.nodup_append]
            refine ⟨hm.keys, by simp, ?_⟩
            intro a ha b hb e
            simp only [List.map_cons, List.map_nil, List.mem_singleton] at hb
            exact hx (hb ▸ e ▸ ha)
          obtain ⟨i1, i2, i3, i4⟩ := ih hm' h1
          refine ⟨i1, (List.prefix_append _ _).trans i2, ?_, fun y => ?_⟩
          · obtain ⟨t, rfl⟩ := i2
            have : (m ++ [(x, ch)]).lookup x = some ch := by
              rw [List.lookup_append, hl]; simp
            rw [List.map_cons, i3, letterOf, lookup_append_some this]; rfl
          · rw [i4 y]
            simp only [List.map_append, List.map_cons, List.map_nil, List.mem_append, List.mem_cons,
              List.not_mem_nil, false_or, or_assoc]

omit [DecidableEq α] in
theorem letters_length {m : List (α × Char)} {u : List Char} (hm : LetterMap m u) :
    m.length + u.length = 26 := by
  have := congrArg List.length hm.letters
  rw [List.length_append, List.length_map] at this
  exact this

/-- Letters run out only for more than 26 labels. -/
theorem assignLetters_error {m : List (α × Char)} {u : List Char} {xs : List α} (hm : LetterMap m u)
    {e : PyErr} (h : assignLetters m u xs = .error e) :
    e = .indexError ∧ ∃ L : List α, L.Nodup ∧ L.length = 27 ∧ ∀ x ∈ L, x ∈ m.map Prod.fst ∨ x ∈ xs := by
  induction xs generalizing m u with
  | nil => rw [assignLetters] at h; cases h
  | cons x xs ih =>
    simp only [assignLetters] at h
    split at h
    · split at h
      · rename_i e' h1
        obtain rfl := Except.error.inj h
        obtain ⟨i0, L, i1, i2, i3⟩ := ih hm h1
        refine ⟨i0, L, i1, i2, fun y hy => (i3 y hy).imp id fun h => List.mem_cons_of_mem _ h⟩
      · cases h
    · rename_i hl
      have hx := lookup_eq_none_iff.1 hl
      split at h
      · obtain rfl := Except.error.inj h
        refine ⟨rfl, x :: m.map Prod.fst, List.nodup_cons.2 ⟨hx, hm.keys⟩, ?_, ?_⟩
        · have := letters_length hm
          simp at this ⊢; omega
        · intro y hy
          rcases List.mem_cons.1 hy with rfl | hy
          · exact .inr (by simp)
          · exact .inl hy
      · rename_i ch un
        split at h
        · rename_i e' h1
          obtain rfl := Except.error.inj h
          have hm' : LetterMap (m ++ [(x, ch)]) un := by
            refine ⟨by rw [← hm.letters]; simp, ?_⟩
            rw [List.map_append, List.nodup_append]
            refine ⟨hm.keys, by simp, ?_⟩
            intro a ha b hb e
            simp only [List.map_cons, List.map_nil, List.mem_singleton] at hb
            exact hx (hb ▸ e ▸ ha)
          obtain ⟨i0, L, i1, i2, i3⟩ := ih hm' h1
          refine ⟨i0, L, i1, i2, fun y hy => ?_⟩
          rcases i3 y hy with h | h
          · rw [List.map_append, List.mem_append] at h
            rcases h with h | h
            · exact .inl h
            · simp only [List.map_cons, List.map_nil, List.mem_singleton] at h
              exact .inr (by simp [h])
          · exact .inr (List.mem_cons_of_mem _ h)
        · cases h

theorem assignAll_ok {m : List (α × Char)} {u : List Char} {xss : List (List α)} (hm : LetterMap m u)
    {m' : List (α × Char)} {ls : List (List Char)} (h : assignAll m u xss = .ok (m', ls)) :
    (∃ u', LetterMap m' u') ∧ m <+: m' ∧ ls = xss.map (List.map (letterOf m')) ∧
      ∀ x, x ∈ m'.map Prod.fst ↔ x ∈ m.map Prod.fst ∨ x ∈ xss.flatten := by
  induction xss generalizing m u ls with
  | nil =>
    rw [assignAll] at h
    obtain ⟨rfl, rfl⟩ := Prod.mk.inj (Except.ok.inj h)
    exact ⟨⟨u, hm⟩, List.prefix_refl _, rfl, by simp⟩
  | cons xs xss ih =>
    rw [assignAll] at h
    split at h
    · cases h
    · rename_i m1 u1 l1 h1
      split at h
      · cases h
      · rename_i m2 l2 h2
        obtain ⟨rfl, rfl⟩ := Prod.mk.inj (Except.ok.inj h)
        obtain ⟨i1, i2, i3, i4⟩ := assignLetters_ok hm h1
        obtain ⟨j1, j2, j3, j4⟩ := ih i1 h2
        refine ⟨j1, i2.trans j2, ?_, fun x => ?_⟩
        · rw [List.map_cons, i3, ← j3]
          congr 1
          refine List.map_congr_left fun x hx => ?_
          have hk := (i4 x).2 (.inr hx)
          cases hl : m1.lookup x with
          | none => exact absurd hk (lookup_eq_none_iff.1 hl)
          | some ch =>
            obtain ⟨t, rfl⟩ := j2
            rw [letterOf, letterOf, hl, lookup_append_some hl]
        · rw [j4 x, i4 x, List.flatten_cons, List.mem_append, or_assoc]

theorem assignAll_error {m : List (α × Char)} {u : List Char} {xss : List (List α)} (hm : LetterMap m u)
    {e : PyErr} (h : assignAll m u xss = .error e) :
    e = .indexError ∧ ∃ L : List α, L.Nodup ∧ L.length = 27 ∧ ∀ x ∈ L, x ∈ m.map Prod.fst ∨ x ∈ xss.flatten := by
  induction xss generalizing m u with
  | nil => rw [assignAll] at h; cases h
  | cons xs xss ih =>
    rw [assignAll] at h
    split at h
    · rename_i e' h1
      obtain rfl := Except.error.inj h
      obtain ⟨i0, L, i1, i2, i3⟩ := assignLetters_error hm h1
      refine ⟨i0, L, i1, i2, fun x hx => (i3 x hx).imp id fun h => ?_⟩
      rw [List.flatten_cons]; exact List.mem_append_left _ h
    · rename_i m1 u1 l1 h1
      obtain ⟨j1, j2, j3, j4⟩ := assignLetters_ok hm h1
      split at h
      · rename_i e' h2
        obtain rfl := Except.error.inj h
        obtain ⟨i0, L, i1, i2, i3⟩ := ih j1 h2
        refine ⟨i0, L, i1, i2, fun x hx => ?_⟩
        rw [List.flatten_cons, List.mem_append]
        rcases i3 x hx with h | h
        · rcases (j4 x).1 h with h | h
          · exact .inl h
          · exact .inr (.inl h)
        · exact .inr (.inr h)
      · cases h

omit [DecidableEq α] in
theorem letterMap_nil : LetterMap ([] : List (α × Char)) alphabet := ⟨by simp, by simp⟩

theorem mem_of_lookup {m : List (α × Char)} {x : α} {ch : Char} (h : m.lookup x = some ch) : (x, ch) ∈ m := by
  induction m with
  | nil => cases h
  | cons p m ih =>
    rw [List.lookup_cons] at h
    by_cases hx : x = p.1
    · subst hx
      simp at h
      subst h
      simp
    · have hb : (x == p.1) = false := by simpa using hx
      rw [hb] at h
      exact List.mem_cons_of_mem _ (ih h)

theorem letterOf_mem {m : List (α × Char)} {x : α} (hx : x ∈ m.map Prod.fst) : (x, letterOf m x) ∈ m := by
  cases hl : m.lookup x with
  | none => exact absurd hx (lookup_eq_none_iff.1 hl)
  | some ch => rw [letterOf, hl]; exact mem_of_lookup hl

theorem letterOf_alpha {m : List (α × Char)} {u : List Char} (hm : LetterMap m u) {x : α}
    (hx : x ∈ m.map Prod.fst) : (letterOf m x).isAlpha = true := by
  have h1 : letterOf m x ∈ alphabet := by
    rw [← hm.letters]
    exact List.mem_append_left _ (List.mem_map.2 ⟨_, letterOf_mem hx, rfl⟩)
  have : ∀ ch ∈ alphabet, ch.isAlpha = true := by decide
  exact this _ h1

theorem letterOf_inj {m : List (α × Char)} {u : List Char} (hm : LetterMap m u) :
    InjOn (letterOf m) (m.map Prod.fst) := by
  intro x hx y hy e
  have hn : (m.map Prod.snd).Nodup := by
    have : alphabet.Nodup := by decide
    rw [← hm.letters] at this
    exact (List.nodup_append.1 this).1
  have h1 := letterOf_mem hx
  have h2 := letterOf_mem hy
  rw [← e] at h2
  exact congrArg Prod.fst (List.inj_on_of_nodup_map hn h1 h2 rfl)

theorem flatMap_dropLast {ls : List (List Char)} :
    (ls.flatMap fun l => l ++ [',']).dropLast = [','].intercalate ls := by
  induction ls with
  | nil => rfl
  | cons l ls ih =>
    rw [List.flatMap_cons]
    cases ls with
    | nil => simp [List.intercalate]
    | cons l2 ls =>
      have hne : ((l2 :: ls).flatMap fun l => l ++ [',']) ≠ [] := by simp
      rw [List.dropLast_append_of_ne_nil hne, ih, List.append_assoc]
      simp [List.intercalate, List.intersperse]

/-- What the conversion of the tuples yields. -/
theorem newEinsumSubscripts_ok {ins : List (List α)} {out : List α} {m : List (α × Char)} {ls : List (List Char)}
    (h : assignAll [] alphabet ins = .ok (m, ls)) (hout : ∀ x ∈ out, x ∈ ins.flatten) :
    newEinsumSubscripts (ins ++ [out]) false = .ok (subscripts (ins.map (List.map (letterOf m))) (out.map (letterOf m)),
      ins.map (List.map (letterOf m)) ++ [out.map (letterOf m)]) ∧
    newEinsumSubscripts ins true = .ok (subscripts (ins.map (List.map (letterOf m))) [],
      ins.map (List.map (letterOf m)) ++ [[]]) := by
  obtain ⟨_, _, i3, i4⟩ := assignAll_ok letterMap_nil h
  unfold newEinsumSubscripts
  simp only [Bool.false_eq_true, if_false, if_true, List.dropLast_concat, List.getLastD_concat]
  rw [h]
  simp only
  rw [if_neg, if_neg (by simp), flatMap_dropLast, i3]
  · simp [subscripts, arrow, letterOf]
  · rintro ⟨x, hx, hn⟩
    exact lookup_eq_none_iff.1 hn ((i4 x).2 (.inr (hout x hx)))

end

/-- How two ways of writing an einsum agree: both fail in the same way, or both give components with the same
inputs, shape and values. -/
def Spec.SameEinsum (a b : Except PyErr Einsum) : Prop :=
  (∀ e, a = .error e ↔ b = .error e) ∧
    ∀ c, a = .ok c → ∃ c', b = .ok c' ∧ c'.ins = c.ins ∧ c'.shape = c.shape ∧
      ∀ inp r, c'.compute inp r = c.compute inp r

theorem stdEinsumNew_eq {α : Type} [DecidableEq α] {operands : List (String × List Nat)} {operation : List (List α)}
    {ops : List (List Char)} {out : List Char} (hne : ops ≠ []) (ho : ∀ o ∈ ops, Alpha o) (hout : Alpha out)
    (h : newEinsumSubscripts operation (operands.length = operation.length) =
      .ok (subscripts ops out, ops ++ [out])) :
    stdEinsumNew operands operation = stdEinsum operands (subscripts ops out) := by
  have hs : subscripts ops out ≠ [] := by simp [subscripts, arrow]
  unfold stdEinsumNew
  rw [h]
  simp only
  cases hc : computeEinsumShape (ops ++ [out]) (operands.map Prod.snd) with
  | error e =>
    unfold stdEinsum
    rw [if_neg hs]
    simp only
    rw [einsumToList_subscripts hne ho hout, hc]
  | ok shape =>
    cases hst : stdEinsum operands (subscripts ops out) with
    | error e => rfl
    | ok c =>
      have := (stdEinsum_ok hne ho hout hst).shape
      rw [hc] at this
      simp only
      rw [Except.ok.inj this]

theorem sameEinsum_rename {operands : List (String × List Nat)} {ops : List (List Char)} {out : List Char}
    (hne : ops ≠ []) (ho : ∀ o ∈ ops, Alpha o) (hout : Alpha out) {h : Char → Char}
    (hi : InjOn h (ops.flatten ++ out)) (ha : ∀ ch ∈ ops.flatten ++ out, (h ch).isAlpha) :
    SameEinsum (stdEinsum operands (subscripts ops out))
      (stdEinsum operands (subscripts (ops.map (List.map h)) (out.map h))) := by
  rw [stdEinsum_rename hne ho hout hi ha]
  constructor
  · intro e
    cases stdEinsum operands (subscripts ops out) with
    | error e' => exact Iff.rfl
    | ok c => simp
  · intro c hc
    rw [hc]
    refine ⟨_, rfl, rfl, rfl, fun inp r => ?_⟩
    have hA := stdEinsum_ok hne ho hout hc
    have hI : InjOn h (labelsOf c.t c.npOut) := by
      rw [hA.t_eq, hA.npOut]
      refine hi.mono fun x hx => ?_
      rcases List.mem_append.1 hx with hx | hx
      · obtain ⟨a, ha, rfl⟩ := List.mem_map.1 hx
        obtain ⟨p, hp, hap⟩ := List.mem_flatMap.1 ha
        exact List.mem_append_left _ (List.mem_flatten.2 ⟨p.1, (List.of_mem_zip hp).1, (List.of_mem_zip hap).1⟩)
      · exact List.mem_append_right _ hx
    have hz : (c.npOps.map (List.map h)).zip c.shapes = rename h c.t := by
      unfold rename Einsum.t; rw [List.zip_map_left]; rfl
    unfold Einsum.compute
    simp only
    rw [hz, npEinsumShape_rename hI, npEinsum_rename hI, npEinsum_rename hI]
    rfl

/-- **C46**: the tuples mean the same as a string with any letters `g` in place of the labels, different letters
for different labels. If there are as many tuples as operands, the result is a scalar. -/
theorem c46_same {α : Type} [DecidableEq α] {operands : List (String × List Nat)} {ins : List (List α)}
    (hne : ins ≠ []) {out : List α} (hout : ∀ x ∈ out, x ∈ ins.flatten) (hfew : ins.flatten.dedup.length ≤ 26)
    {g : α → Char} (hg : ∀ x ∈ ins.flatten, ∀ y ∈ ins.flatten, g x = g y → x = y)
    (hga : ∀ x ∈ ins.flatten, (g x).isAlpha) :
    (operands.length ≠ ins.length + 1 → SameEinsum (stdEinsumNew operands (ins ++ [out]))
      (stdEinsum operands (subscripts (ins.map (List.map g)) (out.map g)))) ∧
    (operands.length = ins.length → SameEinsum (stdEinsumNew operands ins)
      (stdEinsum operands (subscripts (ins.map (List.map g)) []))) := by
  cases hm : assignAll [] alphabet ins with
  | error e =>
    exfalso
    obtain ⟨_, L, h1, h2, h3⟩ := assignAll_error letterMap_nil hm
    have : L.length ≤ ins.flatten.dedup.length :=
      (List.subperm_of_subset h1 fun x hx => List.mem_dedup.2 ((h3 x hx).resolve_left (by simp))).length_le
    omega
  | ok p =>
    obtain ⟨m, ls⟩ := p
    obtain ⟨⟨u, i1⟩, _, _, i4⟩ := assignAll_ok letterMap_nil hm
    have hkey : ∀ x ∈ ins.flatten, x ∈ m.map Prod.fst := fun x hx => (i4 x).2 (.inr hx)
    have hinj : ∀ x ∈ ins.flatten, ∀ y ∈ ins.flatten, letterOf m x = letterOf m y → x = y :=
      fun x hx y hy e => letterOf_inj i1 x (hkey x hx) y (hkey y hy) e
    obtain ⟨n1, n2⟩ := newEinsumSubscripts_ok (out := out) hm hout
    -- letters to letters
    let h : Char → Char := fun ch => match ins.flatten.find? fun x => letterOf m x = ch with
      | some x => g x
      | none => ch
    have hh : ∀ x ∈ ins.flatten, h (letterOf m x) = g x := by
      intro x hx
      show (match ins.flatten.find? fun y => letterOf m y = letterOf m x with
        | some x => g x
        | none => letterOf m x) = g x
      cases hf : ins.flatten.find? fun y => letterOf m y = letterOf m x with
      | none => exact absurd (List.find?_eq_none.1 hf x hx) (by simp)
      | some y =>
        have h1 := List.find?_some hf
        have h2 := List.mem_of_find?_eq_some hf
        simp only [decide_eq_true_eq] at h1
        rw [hinj y h2 x hx h1]
    have hmapin : (ins.map (List.map (letterOf m))).map (List.map h) = ins.map (List.map g) := by
      rw [List.map_map]
      refine List.map_congr_left fun o ho => ?_
      simp only [Function.comp, List.map_map]
      exact List.map_congr_left fun x hx => hh x (List.mem_flatten.2 ⟨o, ho, hx⟩)
    have hmapout : (out.map (letterOf m)).map h = out.map g := by
      rw [List.map_map]
      exact List.map_congr_left fun x hx => hh x (hout x hx)
    have hlet : ∀ (o : List α), (∀ x ∈ o, x ∈ ins.flatten) →
        ∀ ch ∈ (ins.map (List.map (letterOf m))).flatten ++ o.map (letterOf m),
          ∃ x ∈ ins.flatten, ch = letterOf m x := by
      intro o ho ch hc
      rcases List.mem_append.1 hc with hc | hc
      · obtain ⟨o', ho', hc⟩ := List.mem_flatten.1 hc
        obtain ⟨o'', ho'', rfl⟩ := List.mem_map.1 ho'
        obtain ⟨x, hx, rfl⟩ := List.mem_map.1 hc
        exact ⟨x, List.mem_flatten.2 ⟨_, ho'', hx⟩, rfl⟩
      · obtain ⟨x, hx, rfl⟩ := List.mem_map.1 hc
        exact ⟨x, ho x hx, rfl⟩
    have hI : ∀ (o : List α), (∀ x ∈ o, x ∈ ins.flatten) →
        InjOn h ((ins.map (List.map (letterOf m))).flatten ++ o.map (letterOf m)) := by
      intro o ho a hA b hB e
      obtain ⟨x, hx, rfl⟩ := hlet o ho a hA
      obtain ⟨y, hy, rfl⟩ := hlet o ho b hB
      rw [hh x hx, hh y hy] at e
      rw [hg x hx y hy e]
    have hAl : ∀ (o : List α), (∀ x ∈ o, x ∈ ins.flatten) →
        ∀ ch ∈ (ins.map (List.map (letterOf m))).flatten ++ o.map (letterOf m), (h ch).isAlpha := by
      intro o ho ch hc
      obtain ⟨x, hx, rfl⟩ := hlet o ho ch hc
      rw [hh x hx]; exact hga x hx
    have hα : ∀ o ∈ ins.map (List.map (letterOf m)), Alpha o := by
      intro o ho ch hc
      obtain ⟨x, hx, rfl⟩ := hlet [] (by simp) ch (List.mem_append_left _ (List.mem_flatten.2 ⟨o, ho, hc⟩))
      exact letterOf_alpha i1 (hkey x hx)
    have hαout : Alpha (out.map (letterOf m)) := by
      intro ch hc
      obtain ⟨x, hx, rfl⟩ := hlet out hout ch (List.mem_append_right _ hc)
      exact letterOf_alpha i1 (hkey x hx)
    have hne' : ins.map (List.map (letterOf m)) ≠ [] := by simpa using hne
    constructor
    · intro hl
      rw [stdEinsumNew_eq hne' hα hαout (by
        rw [show decide (operands.length = (ins ++ [out]).length) = false by simpa using hl]; exact n1)]
      have := sameEinsum_rename (operands := operands) hne' hα hαout (hI out hout) (hAl out hout)
      rwa [hmapin, hmapout] at this
    · intro hl
      rw [stdEinsumNew_eq (out := []) hne' hα (by intro ch hc; cases hc) (by
        rw [show decide (operands.length = ins.length) = true by simpa using hl]; exact n2)]
      have := sameEinsum_rename (operands := operands) (out := []) hne' hα (by intro ch hc; cases hc)
        (hI [] (by simp)) (hAl [] (by simp))
      rwa [hmapin] at this

/-- More than 26 labels are refused. -/
theorem c46_too_many {α : Type} [DecidableEq α] {operands : List (String × List Nat)} {ins : List (List α)}
    {out : List α} (hmany : 26 < ins.flatten.dedup.length) (hl : operands.length ≠ ins.length + 1) :
    stdEinsumNew operands (ins ++ [out]) = .error .indexError := by
  unfold stdEinsumNew newEinsumSubscripts
  rw [show decide (operands.length = (ins ++ [out]).length) = false by simpa using hl]
  simp only [Bool.false_eq_true, if_false, List.dropLast_concat]
  cases hm : assignAll [] alphabet ins with
  | error e => rw [(assignAll_error letterMap_nil hm).1]
  | ok p =>
    exfalso
    obtain ⟨⟨u, i1⟩, _, _, i4⟩ := assignAll_ok (m' := p.1) (ls := p.2) letterMap_nil hm
    have h1 := letters_length i1
    have : ins.flatten.dedup.length ≤ (p.1.map Prod.fst).length :=
      (List.subperm_of_subset (List.nodup_dedup _) fun x hx => (i4 x).2 (.inr (List.mem_dedup.1 hx))).length_le
    rw [List.length_map] at this
    omega

/-- A label of the result that no operand has is refused. -/
theorem c46_unknown_label {α : Type} [DecidableEq α] {operands : List (String × List Nat)} {ins : List (List α)}
    {out : List α} (hfew : ins.flatten.dedup.length ≤ 26) (hout : ∃ x ∈ out, x ∉ ins.flatten)
    (hl : operands.length ≠ ins.length + 1) :
    stdEinsumNew operands (ins ++ [out]) = .error .keyError := by
  unfold stdEinsumNew newEinsumSubscripts
  rw [show decide (operands.length = (ins ++ [out]).length) = false by simpa using hl]
  simp only [Bool.false_eq_true, if_false, List.dropLast_concat, List.getLastD_concat]
  cases hm : assignAll [] alphabet ins with
  | error e =>
    exfalso
    obtain ⟨_, L, h1, h2, h3⟩ := assignAll_error letterMap_nil hm
    have : L.length ≤ ins.flatten.dedup.length :=
      (List.subperm_of_subset h1 fun x hx => List.mem_dedup.2 ((h3 x hx).resolve_left (by simp))).length_le
    omega
  | ok p =>
    obtain ⟨_, _, _, i4⟩ := assignAll_ok (m' := p.1) (ls := p.2) letterMap_nil hm
    simp only
    rw [if_pos]
    obtain ⟨x, hx, hno⟩ := hout
    refine ⟨x, hx, lookup_eq_none_iff.2 fun hmem => hno (((i4 x).1 hmem).resolve_left (by simp))⟩

/-- A matrix product with numbers as labels. -/
example : ∃ c, stdEinsumNew [("x", [2, 3]), ("y", [3, 4])] [[0, 1], [1, 2], [0, 2]] = .ok c ∧ c.shape = [2, 4] :=
  ⟨_, rfl, rfl⟩

example : let ins := [[0, 1], [1, 2]]
    let g : Nat → Char := fun n => if n = 0 then 'i' else if n = 1 then 'j' else 'k'
    ins.flatten.dedup.length ≤ 26 ∧ (∀ x ∈ [0, 2], x ∈ ins.flatten) ∧
      (∀ x ∈ ins.flatten, ∀ y ∈ ins.flatten, g x = g y → x = y) ∧ ∀ x ∈ ins.flatten, (g x).isAlpha := by decide

example : 26 < [List.range 27].flatten.dedup.length := by decide

end OM
