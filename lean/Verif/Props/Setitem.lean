import Verif.Lemmas.Setitem
import Verif.Lemmas.Component

/-! # Indexed assignment (C17, C18, C21) -/

namespace OM
open Spec

/-- Keys that NumPy reads the same way for an output of this shape: tuples, and single items on outputs
of rank one. (A single int or slice on an output of higher rank is a flat position for the code, a row
for NumPy.) -/
def Plain (shape : List Nat) : Key → Prop
  | .tuple _ => True
  | .one (.int k) => 0 ≤ k ∧ ∃ n, shape = [n]
  | .one (.slice _ _ _) => ∃ n, shape = [n]

/-- The row-major positions selected by a key in an output of the given shape. -/
def Positions (shape : List Nat) (key : Key) (pos : List Nat) : Prop :=
  ∃ sels, KeySelects shape key.items sels ∧ IsBlock shape sels pos

theorem positions_unique {shape : List Nat} {key : Key} {p q : List Nat} (hp : Positions shape key p)
    (hq : Positions shape key q) : p = q := by
  obtain ⟨s, h1, h2⟩ := hp
  obtain ⟨s', h1', h2'⟩ := hq
  rw [keySelects_unique h1' h1] at h2'
  exact isBlock_unique h2 h2'

theorem isBlock_one (n : Nat) (l : List Nat) : IsBlock [n] [l] l := by
  refine ⟨by simp [prodShape], ?_⟩
  intro j hj
  rcases j with _ | ⟨j, _ | ⟨j', js⟩⟩
  · cases hj
  · have hj' : j < l.length := by
      cases hj with
      | cons h _ => exact h
    simp [ravel, prodShape, hj']
  · cases hj with
    | cons h h' => cases h'

theorem tgt_positions {shape : List Nat} {key : Key} {s : List Nat} {idx : List Int}
    (h : tgtIndices shape key = .ok (s, idx)) (hr : ∀ i ∈ idx, i < prodShape shape)
    (hp : Plain shape key) :
    ∃ sels, KeySelects shape key.items sels ∧ s = sels.map List.length ∧
      IsBlock shape sels (idx.map Int.toNat) := by
  have f := tgtIndices_facts h
  cases key with
  | tuple es =>
    obtain ⟨sels, h1, h2, h3, -⟩ := f.tuple es rfl
    exact ⟨sels, h1, h2, h3⟩
  | one e =>
    cases e with
    | int k =>
      obtain ⟨hk, n, rfl⟩ := hp
      cases h
      refine ⟨[[k.toNat]], .cons ⟨hk, ?_, rfl⟩ .nil, rfl, isBlock_one _ _⟩
      have := hr k (by simp)
      simpa [prodShape] using this
    | slice a b st =>
      obtain ⟨n, rfl⟩ := hp
      unfold tgtIndices at h
      simp only at h
      cases hl : sliceToList a b st (some n) with
      | error e => rw [hl] at h; cases h
      | ok l =>
        rw [hl] at h
        cases h
        obtain ⟨hb0, hc⟩ := sliceToList_ok hl
        have hnn := f.nonneg (fun k hk => by cases hk)
        refine ⟨[idx.map Int.toNat], .cons ?_ .nil, by simp, isBlock_one _ _⟩
        show Selects n a b (st.getD 1) _
        rw [map_ofNat_toNat hnn]
        exact sliceToList_selects hb0 hc fun x hx => by
          have := hr x hx
          simpa [prodShape] using this

/-- The row-major positions written by an assignment with the given key. A tuple selects a block as in NumPy. An int or
slice alone is a position or range of positions of the flat array, where a slice ends, if nothing else is said, at the
length of the first axis, and a negative end counts from there. -/
def Touched (shape : List Nat) : Key → List Nat → Prop
  | .tuple es, pos => ∃ sels, KeySelects shape es sels ∧ IsBlock shape sels pos
  | .one (.int k), pos => 0 ≤ k ∧ pos = [k.toNat]
  | .one (.slice a b s), pos => ∃ n ns, shape = n :: ns ∧
      IsRange (a.getD 0) (match b with | none => n | some b => if b < 0 then n + b else b) (s.getD 1)
        (pos.map Int.ofNat)

theorem touched_unique {shape : List Nat} {key : Key} {p q : List Nat} (hp : Touched shape key p)
    (hq : Touched shape key q) : p = q := by
  cases key with
  | tuple es => exact positions_unique (key := .tuple es) hp hq
  | one e =>
    cases e with
    | int k => rw [hp.2, hq.2]
    | slice a b s =>
      obtain ⟨n, ns, rfl, h1⟩ := hp
      obtain ⟨n', ns', he, h2⟩ := hq
      cases he
      exact (List.map_inj_right (fun x y h => by simpa using h)).1 (isRange_unique h1 h2)

theorem tgt_touched {shape : List Nat} {key : Key} {s : List Nat} {idx : List Int}
    (h : tgtIndices shape key = .ok (s, idx)) (hneg : ∀ k, key = .one (.int k) → 0 ≤ k) :
    Touched shape key (idx.map Int.toNat) := by
  have f := tgtIndices_facts h
  cases key with
  | tuple es =>
    obtain ⟨sels, h1, -, h3, -⟩ := f.tuple es rfl
    exact ⟨sels, h1, h3⟩
  | one e =>
    cases e with
    | int k =>
      cases h
      exact ⟨hneg k rfl, rfl⟩
    | slice a b st =>
      have hnn := f.nonneg hneg
      cases shape with
      | nil => cases h
      | cons n ns =>
        unfold tgtIndices at h
        simp only at h
        cases hl : sliceToList a b st (some n) with
        | error e => rw [hl] at h; cases h
        | ok l =>
          rw [hl] at h
          cases h
          obtain ⟨-, hc⟩ := sliceToList_ok hl
          obtain ⟨hk, hl2, -⟩ := checkedRange_ok hc
          refine ⟨n, ns, rfl, ?_⟩
          rw [map_ofNat_toNat hnn, hl2]
          exact pyRange_isRange _ _ _ hk

/-- For keys that NumPy reads the same way, the positions are those of NumPy. -/
theorem touched_plain {shape : List Nat} {pre : List Assign} {a : Assign} (ha : AcceptedAt shape pre a)
    (hp : Plain shape a.1) {pos : List Nat} (h : Touched shape a.1 pos) : Positions shape a.1 pos := by
  obtain ⟨idx, h1, h2, -⟩ := accepted_entry ha
  obtain ⟨sels, s1, -, s3⟩ := tgt_positions h1 h2 hp
  rw [touched_unique h (tgt_touched h1 fun k hk => by rw [hk] at hp; exact hp.1)]
  exact ⟨sels, s1, s3⟩

/-! ## C17 -/

/-- Only an assignment refused for overlapping indices leaves a trace in the output. -/
theorem c17_other_failures_leave_no_trace (v : OVar) (key : Key) (name : String) (shape : List Nat)
    {e : PyErr} (h : (setItemIdx v key name shape).2 = some e) (hne : e ≠ .valueError) :
    (setItemIdx v key name shape).1 = v := by
  have ho := setItem_outcome v key name shape
  generalize setItemIdx v key name shape = r at *
  cases ho with
  | refused e => rfl
  | overlap => cases h; exact absurd rfl hne
  | accepted => cases h

/-- A history without failures has no trace of failures. -/
theorem noTrace_of_accepted {shape : List Nat} {as : List Assign}
    (h : ∀ pre a post, as = pre ++ a :: post → AcceptedAt shape pre a) : NoTrace shape as :=
  fun pre a post he hn => absurd (h pre a post he) hn

/-- **C17** (partial): for a history in which refused assignments left no trace and no int key is
negative, the component copies every assigned element from the element of the accepted expression at the
same position of the assigned block, leaves all other elements alone, and no element has two sources.
Missing: the claim for histories in which an assignment refused for overlapping was caught, which is
false, see `c17_refused_assignment_takes_effect`. -/
theorem c17_values_partial {shape : List Nat} {as : List Assign} (hno : NoTrace shape as)
    (hneg : ∀ a ∈ as, ∀ k, a.1 = .one (.int k) → 0 ≤ k) {α : Type} (x : String → Nat → α)
    (out : Nat → α) :
    ∃ r, indexedPassThrough (assigns (OVar.new shape) as).tgt x out = .ok r ∧
      (∀ pre a post, as = pre ++ a :: post → AcceptedAt shape pre a →
        ∃ pos, Touched shape a.1 pos ∧ (Plain shape a.1 → Positions shape a.1 pos) ∧
          pos.length = prodShape a.2.2 ∧ ∀ (k : Nat) (h : k < pos.length), r pos[k] = x a.2.1 k) ∧
      (∀ i : Nat, (∀ pre a post pos, as = pre ++ a :: post → AcceptedAt shape pre a →
        Touched shape a.1 pos → i ∉ pos) → r i = out i) := by
  obtain ⟨t1, t2⟩ := assigns_tgt hno
  have hmemas : ∀ pre a post, as = pre ++ a :: post → a ∈ as := fun pre a post he => by simp [he]
  have hnn : ∀ p ∈ (assigns (OVar.new shape) as).tgt, ∀ i ∈ p.2.2, 0 ≤ i := by
    intro p hp
    obtain ⟨pre, a, post, idx, he, _, ht, rfl⟩ := (t2 p).1 hp
    exact (tgtIndices_facts ht).nonneg fun k hk => hneg a (hmemas _ _ _ he) k hk
  obtain ⟨r, r1, r2, r3⟩ := indexedPassThrough_spec x _ out hnn t1
  refine ⟨r, r1, ?_, ?_⟩
  · intro pre a post he hacc
    obtain ⟨idx, h1, h2, -⟩ := accepted_entry hacc
    have ht := tgt_touched h1 fun k hk => hneg a (hmemas _ _ _ he) k hk
    refine ⟨_, ht, fun hp => touched_plain hacc hp ht, by rw [List.length_map]; exact (tgtIndices_facts h1).size, ?_⟩
    intro k hk
    have := r2 _ ((t2 _).2 ⟨pre, a, post, idx, he, hacc, h1, rfl⟩) k (by simpa using hk)
    simpa using this
  · intro i hi
    refine r3 i fun p hp hm => ?_
    have hnnp := hnn p hp
    obtain ⟨pre, a, post, idx, he, hacc, ht, rfl⟩ := (t2 p).1 hp
    refine hi pre a post _ he hacc (tgt_touched ht fun k hk => hneg a (hmemas _ _ _ he) k hk) ?_
    exact List.mem_map.2 ⟨_, hm, by simp⟩

/-- **C17**, uniqueness: no two accepted assignments touch the same element, whatever happened in
between, and one assignment touches no element twice. -/
theorem c17_one_source {shape : List Nat} {pre mid : List Assign} {a b : Assign}
    (ha : AcceptedAt shape pre a) (hb : AcceptedAt shape (pre ++ a :: mid) b) {p q : List Nat}
    (hp : Touched shape a.1 p) (hq : Touched shape b.1 q) : p.Nodup ∧ ∀ i ∈ p, i ∉ q := by
  obtain ⟨ia, a1, a2, -, -, -, a6⟩ := accepted_entry ha
  obtain ⟨ib, b1, b2, -, b4, -⟩ := accepted_entry hb
  have na : ∀ k, a.1 = .one (.int k) → 0 ≤ k := fun k hk => by rw [hk] at hp; exact hp.1
  have nb : ∀ k, b.1 = .one (.int k) → 0 ≤ k := fun k hk => by rw [hk] at hq; exact hq.1
  have hpeq := touched_unique hp (tgt_touched a1 na)
  have hqeq := touched_unique hq (tgt_touched b1 nb)
  have hnna : ∀ i ∈ ia, 0 ≤ i := (tgtIndices_facts a1).nonneg na
  have hnnb : ∀ i ∈ ib, 0 ≤ i := (tgtIndices_facts b1).nonneg nb
  constructor
  · rw [hpeq, List.nodup_map_iff_inj_on (tgtIndices_facts a1).nodup]
    intro x hx y hy hxy
    have := hnna x hx
    have := hnna y hy
    omega
  · intro i hi hi'
    rw [hpeq] at hi
    rw [hqeq] at hi'
    obtain ⟨x, hx, rfl⟩ := List.mem_map.1 hi
    obtain ⟨y, hy, hxy⟩ := List.mem_map.1 hi'
    have := hnna x hx
    have := hnnb y hy
    have hxy' : y = x := by omega
    subst hxy'
    refine b4 y hy ?_
    have : (pre ++ a :: mid) = (pre ++ [a]) ++ mid := by simp
    rw [this, assigns_append]
    obtain ⟨m, c, -, hc⟩ := assigns_grows (assigns (OVar.new shape) (pre ++ [a])) mid
    rw [hc, a6]
    simp [hx]

/-- Two blocks of a 2 by 3 output: the hypotheses of `c17_values_partial` hold. -/
example : let as : List Assign :=
    [(.tuple [.slice none none none, .int 2], "a", [2, 1]),
     (.tuple [.slice none none none, .slice (some 0) (some 2) none], "b", [2, 2])]
    NoTrace [2, 3] as ∧ (∀ a ∈ as, ∀ k, a.1 = .one (.int k) → 0 ≤ k) ∧
      (assigns (OVar.new [2, 3]) as).tgt =
        [("a", [2, 1], [2, 5]), ("b", [2, 2], [0, 1, 3, 4])] := by
  refine ⟨noTrace_of_accepted ?_, ?_, by decide⟩
  · intro pre a post he
    rcases pre with _ | ⟨p, _ | ⟨p', _ | ⟨p'', pre⟩⟩⟩
    · simp only [List.nil_append, List.cons.injEq] at he
      obtain ⟨rfl, -⟩ := he
      unfold AcceptedAt
      decide
    · simp only [List.cons_append, List.nil_append, List.cons.injEq] at he
      obtain ⟨rfl, rfl, -⟩ := he
      unfold AcceptedAt
      decide
    · simp at he
    · simp at he
  · intro a ha k hk
    simp only [List.mem_cons, List.not_mem_nil, or_false] at ha
    rcases ha with rfl | rfl <;> cases hk

theorem sliceToList_all (n : Nat) : sliceToList none none none (some (n + 1)) =
    .ok ((List.range (n + 1)).map fun (k : Nat) => (k : Int)) := by
  unfold sliceToList
  simp only [Option.getD_none]
  have hr : IsRange 0 ((n + 1 : Nat) : Int) 1 ((List.range (n + 1)).map fun (k : Nat) => (k : Int)) := by
    refine ⟨?_, ?_, ?_⟩
    · intro i hi; simp
    · intro i hi
      obtain ⟨k, hk, rfl⟩ := List.mem_map.1 hi
      have := List.mem_range.1 hk
      simp only [zero_lt_one, if_true]
      exact_mod_cast this
    · simp
  exact checkedRange_of (a := 0) (b := ((n + 1 : Nat) : Int)) (k := 1) (by decide) le_rfl
    (fun h => by omega) hr (by simp)

/-- `out[:] = a` as the first assignment. -/
theorem setItem_all (n : Nat) {ns : List Nat} (hns : 0 < prodShape ns) (name : String) :
    setItemIdx (OVar.new ((n + 1) :: ns)) (.one (.slice none none none)) name [n + 1] =
      (⟨(n + 1) :: ns, [(name, [n + 1], (List.range (n + 1)).map fun (k : Nat) => (k : Int))],
        (List.range (n + 1)).map fun (k : Nat) => (k : Int), true⟩, none) := by
  unfold setItemIdx
  have : (OVar.new ((n + 1) :: ns)).shape = (n + 1) :: ns := rfl
  rw [this]
  simp only [tgtIndices]
  rw [sliceToList_all]
  simp only [Except.map, List.length_map, List.length_range]
  rw [if_neg (by simp), if_neg, if_neg (by simp [OVar.new]), if_neg (by simp [OVar.new])]
  · simp [OVar.new]
  · rintro ⟨i, hi, hlt⟩
    obtain ⟨k, hk, rfl⟩ := List.mem_map.1 hi
    have hk := List.mem_range.1 hk
    have hp : prodShape ((n + 1) :: ns) = (n + 1) * prodShape ns := by simp [prodShape]
    have hm : n + 1 ≤ (n + 1) * prodShape ns := Nat.le_mul_of_pos_right _ hns
    omega

/-- `out[:] = a` accepted and then `out[0] = b` refused. -/
theorem setItem_overlap (n : Nat) :
    setItemIdx (setItemIdx (OVar.new [n + 1]) (.one (.slice none none none)) "a" [n + 1]).1 (.one (.int 0)) "b" [1] =
      (⟨[n + 1], [("a", [n + 1], (List.range (n + 1)).map fun (k : Nat) => (k : Int)), ("b", [1], [0])],
        ((List.range (n + 1)).map fun (k : Nat) => (k : Int)) ++ [0], true⟩, some .valueError) := by
  rw [setItem_all n (by simp [prodShape])]
  unfold setItemIdx
  simp only [tgtIndices]
  rw [if_neg (by simp), if_neg, if_neg (by simp), if_pos]
  · simp
  · exact ⟨0, by simp, List.mem_map.2 ⟨0, by simp, rfl⟩⟩
  · rintro ⟨i, hi, hlt⟩
    have : i = 0 := by simpa using hi
    subst this
    simp only [prodShape, List.prod_cons, List.prod_nil, mul_one] at hlt
    omega

theorem overlap_output (n : Nat) {α : Type} (x : String → Nat → α) (out : Nat → α) :
    ∃ r, indexedPassThrough [("a", [n + 1], (List.range (n + 1)).map fun (k : Nat) => (k : Int)), ("b", [1], [0])]
      x out = .ok r ∧ r 0 = x "b" 0 := by
  unfold indexedPassThrough
  simp only [List.foldlM_cons, List.foldlM_nil]
  rw [if_neg]
  · refine ⟨_, rfl, ?_⟩
    simp
  · rintro ⟨i, hi, hlt⟩
    obtain ⟨k, hk, rfl⟩ := List.mem_map.1 hi
    omega

/-- The code violates C17: an assignment refused for overlapping indices takes effect all the same. For
an output of any length `n + 1`, after `out[:] = a` was accepted and `out[0] = b` was refused, element 0
is copied from `b`. -/
theorem c17_refused_assignment_takes_effect (n : Nat) {α : Type} (x : String → Nat → α)
    (out : Nat → α) :
    let v := (setItemIdx (OVar.new [n + 1]) (.one (.slice none none none)) "a" [n + 1]).1
    AcceptedAt [n + 1] [] (.one (.slice none none none), "a", [n + 1]) ∧
    (setItemIdx v (.one (.int 0)) "b" [1]).2 = some .valueError ∧
    ∃ r, indexedPassThrough (setItemIdx v (.one (.int 0)) "b" [1]).1.tgt x out = .ok r ∧
      r 0 = x "b" 0 := by
  intro v
  refine ⟨?_, by rw [setItem_overlap], by rw [setItem_overlap]; exact overlap_output n x out⟩
  show (setItemIdx (OVar.new [n + 1]) (.one (.slice none none none)) "a" [n + 1]).2 = none
  rw [setItem_all n (by simp [prodShape])]

/-- A slice alone is not read as in NumPy for an output of two axes: `out[:] = a` accepts a vector as long as the
first axis and writes it to the first elements in row-major order; an expression of the shape of the output, which
NumPy would assign, is refused. -/
theorem c17_matrix_slice (n m : Nat) (name : String) {α : Type} (x : String → Nat → α) (out : Nat → α) :
    let key : Key := .one (.slice none none none)
    AcceptedAt [n + 1, m + 2] [] (key, name, [n + 1]) ∧
    (∃ r, indexedPassThrough (assigns (OVar.new [n + 1, m + 2]) [(key, name, [n + 1])]).tgt x out = .ok r ∧
      (∀ i ≤ n, r i = x name i) ∧ ∀ i, n < i → r i = out i) ∧
    setItemIdx (OVar.new [n + 1, m + 2]) key name [n + 1, m + 2] = (OVar.new [n + 1, m + 2], some .valueError) := by
  intro key
  have hs := setItem_all n (ns := [m + 2]) (by simp [prodShape]) name
  refine ⟨?_, ?_, ?_⟩
  · show (setItemIdx (OVar.new [n + 1, m + 2]) key name [n + 1]).2 = none
    rw [hs]
  · show ∃ r, indexedPassThrough (setItemIdx (OVar.new [n + 1, m + 2]) key name [n + 1]).1.tgt x out = .ok r ∧ _
    rw [hs]
    have hinj : ((List.range (n + 1)).map fun (k : Nat) => (k : Int)).Nodup :=
      (List.nodup_map_iff (fun a b h => by simpa using h)).2 List.nodup_range
    obtain ⟨r, r1, r2, r3⟩ := indexedPassThrough_spec x
      [(name, [n + 1], (List.range (n + 1)).map fun (k : Nat) => (k : Int))] out (by simp) (by simpa using hinj)
    refine ⟨r, r1, fun i hi => ?_, fun i hi => r3 i (by simp; omega)⟩
    have := r2 _ (List.mem_singleton.2 rfl) i (by simp; omega)
    simpa using this
  · unfold setItemIdx
    have : (OVar.new [n + 1, m + 2]).shape = [n + 1, m + 2] := rfl
    rw [this]
    simp only [key, tgtIndices]
    rw [sliceToList_all]
    simp [Except.map]

/-! ## The partials of the component -/

theorem indexed_apply {idx : List Int} (hnn : ∀ i ∈ idx, 0 ≤ i) (hnd : idx.Nodup) (w : Nat → ℝ) (i : Nat) :
    (∀ (k : Nat) (_ : k < idx.length), idx[k].toNat = i →
      (⟨idx.map Int.toNat, List.range idx.length, List.replicate idx.length 1⟩ : Coo).apply w i = w k) ∧
    ((i : Int) ∉ idx →
      (⟨idx.map Int.toNat, List.range idx.length, List.replicate idx.length 1⟩ : Coo).apply w i = 0) := by
  unfold Coo.apply
  rw [cooApply_eq_sum (n := idx.length) _ _ _ _ _ (by simp) (by simp) (by simp)]
  constructor
  · intro k hk hki
    rw [Finset.sum_eq_single k]
    · rw [if_pos (by simp [List.getD_eq_getElem?_getD, hk, hki])]
      simp [List.getD_eq_getElem?_getD, hk]
    · intro k' hk' hne
      have hk'' := Finset.mem_range.1 hk'
      rw [if_neg]
      simp only [List.getD_eq_getElem?_getD, List.getElem?_map, hk'', List.getElem?_eq_getElem, Option.map_some,
        Option.getD_some]
      intro he
      have h1 := hnn _ (List.getElem_mem hk)
      have h2 := hnn _ (List.getElem_mem hk'')
      exact hne ((List.Nodup.getElem_inj_iff hnd).1 (by omega))
    · intro h; exact absurd (Finset.mem_range.2 hk) h
  · intro hi
    refine Finset.sum_eq_zero fun k hk => ?_
    have hk' := Finset.mem_range.1 hk
    rw [if_neg]
    simp only [List.getD_eq_getElem?_getD, List.getElem?_map, hk', List.getElem?_eq_getElem, Option.map_some,
      Option.getD_some]
    intro he
    have h1 := hnn _ (List.getElem_mem hk')
    exact hi (by rw [← he, Int.toNat_of_nonneg h1]; exact List.getElem_mem hk')

/-- What the component writes is affine in its inputs. -/
theorem indexed_affine (tgt : List (String × List Nat × List Int)) (hnn : ∀ p ∈ tgt, ∀ i ∈ p.2.2, 0 ≤ i)
    (hnd : (tgt.flatMap fun p => p.2.2).Nodup) (x : String → Nat → ℝ) (out : Nat → ℝ) :
    ∃ r, indexedPassThrough tgt x out = .ok r ∧ ∀ i : Nat,
      r i = (if ∃ p ∈ tgt, (i : Int) ∈ p.2.2 then 0 else out i) + (tgt.map fun p =>
        (⟨p.2.2.map Int.toNat, List.range p.2.2.length, List.replicate p.2.2.length 1⟩ : Coo).apply
          (x p.1) i).sum := by
  obtain ⟨r, r1, r2, r3⟩ := indexedPassThrough_spec x tgt out hnn hnd
  refine ⟨r, r1, fun i => ?_⟩
  have happ := fun p (hp : p ∈ tgt) => indexed_apply (hnn p hp) ((List.nodup_flatMap.1 hnd).1 p hp) (x p.1) i
  by_cases h : ∃ p ∈ tgt, (i : Int) ∈ p.2.2
  · rw [if_pos h, zero_add]
    obtain ⟨p, hp, hi⟩ := h
    obtain ⟨k, hk, hki⟩ := List.getElem_of_mem hi
    have hki' : p.2.2[k].toNat = i := by rw [hki]; simp
    have := r2 p hp k hk
    rw [hki'] at this
    rw [this]
    obtain ⟨l1, l2, rfl⟩ := List.append_of_mem hp
    have hz : ∀ q ∈ l1 ++ l2, (⟨q.2.2.map Int.toNat, List.range q.2.2.length,
        List.replicate q.2.2.length 1⟩ : Coo).apply (x q.1) i = 0 := by
      intro q hq
      refine (happ q (by simp only [List.mem_append, List.mem_cons] at hq ⊢; tauto)).2 fun hm => ?_
      rw [List.flatMap_append, List.flatMap_cons, List.nodup_append] at hnd
      obtain ⟨-, n2, n3⟩ := hnd
      rw [List.nodup_append] at n2
      rcases List.mem_append.1 hq with hq | hq
      · exact n3 _ (List.mem_flatMap.2 ⟨q, hq, hm⟩) _ (List.mem_append.2 (.inl hi)) rfl
      · exact n2.2.2 _ hi _ (List.mem_flatMap.2 ⟨q, hq, hm⟩) rfl
    have e1 : (l1.map fun q => (⟨q.2.2.map Int.toNat, List.range q.2.2.length,
        List.replicate q.2.2.length 1⟩ : Coo).apply (x q.1) i).sum = 0 :=
      List.sum_eq_zero fun v hv => by
        obtain ⟨q, hq, rfl⟩ := List.mem_map.1 hv
        exact hz q (by simp [hq])
    have e2 : (l2.map fun q => (⟨q.2.2.map Int.toNat, List.range q.2.2.length,
        List.replicate q.2.2.length 1⟩ : Coo).apply (x q.1) i).sum = 0 :=
      List.sum_eq_zero fun v hv => by
        obtain ⟨q, hq, rfl⟩ := List.mem_map.1 hv
        exact hz q (by simp [hq])
    rw [List.map_append, List.map_cons, List.sum_append, List.sum_cons, e1, e2,
      (happ p (by simp)).1 k hk hki']
    ring
  · rw [if_neg h]
    push Not at h
    rw [r3 i h, List.sum_eq_zero, add_zero]
    intro v hv
    obtain ⟨q, hq, rfl⟩ := List.mem_map.1 hv
    exact (happ q hq).2 (h q hq)

/-- The recorded names differ. -/
theorem assigns_names (shape : List Nat) (as : List Assign) :
    ((assigns (OVar.new shape) as).tgt.map Prod.fst).Nodup := by
  induction as using List.reverseRecOn with
  | nil => simp [assigns, OVar.new]
  | append_singleton as a ih =>
    rw [assigns_snoc]
    have ho := setItem_outcome (assigns (OVar.new shape) as) a.1 a.2.1 a.2.2
    generalize setItemIdx (assigns (OVar.new shape) as) a.1 a.2.1 a.2.2 = r at *
    have key : (∀ p ∈ (assigns (OVar.new shape) as).tgt, p.1 ≠ a.2.1) → ∀ idx : List Int,
        (((assigns (OVar.new shape) as).tgt ++ [(a.2.1, a.2.2, idx)]).map Prod.fst).Nodup := by
      intro hn idx
      rw [List.map_append, List.nodup_append]
      refine ⟨ih, by simp, ?_⟩
      intro y hy z hz hyz
      obtain ⟨p, hp, rfl⟩ := List.mem_map.1 hy
      obtain rfl : z = a.2.1 := by simpa using hz
      exact hn p hp hyz
    cases ho with
    | refused e => exact ih
    | overlap idx _ _ hn => exact key hn idx
    | accepted idx _ _ hn => exact key hn idx

theorem indexedPartials_eq {tgt : List (String × List Nat × List Int)} (hn : (tgt.map Prod.fst).Nodup)
    {p : String × List Nat × List Int} (hp : p ∈ tgt) :
    indexedPartials tgt p.1 =
      ⟨p.2.2.map Int.toNat, List.range p.2.2.length, List.replicate p.2.2.length 1⟩ := by
  have hf : tgt.find? (fun q => q.1 == p.1) = some p := by
    obtain ⟨l1, l2, rfl⟩ := List.append_of_mem hp
    rw [List.find?_append, List.find?_eq_none.2, Option.none_or]
    · simp
    · intro q hq he
      rw [List.map_append, List.map_cons, List.nodup_append] at hn
      exact hn.2.2 q.1 (List.mem_map.2 ⟨q, hq, rfl⟩) p.1 (by simp) (by simpa using he)
  unfold indexedPartials
  rw [hf]

/-- The partials declared by the component are exact, for histories as in `c17_values_partial`. -/
theorem c17_partials {shape : List Nat} {as : List Assign} (hno : NoTrace shape as)
    (hneg : ∀ a ∈ as, ∀ k, a.1 = .one (.int k) → 0 ≤ k) (out : Nat → ℝ) (inp : String → Nat → ℝ) :
    ExactPartials (indexedIns (assigns (OVar.new shape) as).tgt) (prodShape shape)
      (indexedOutput (assigns (OVar.new shape) as).tgt out)
      (indexedPartials (assigns (OVar.new shape) as).tgt) inp := by
  obtain ⟨t1, t2⟩ := assigns_tgt hno
  have hnames := assigns_names shape as
  set tgt := (assigns (OVar.new shape) as).tgt with htgt
  have facts : ∀ p ∈ tgt, (∀ i ∈ p.2.2, 0 ≤ i ∧ i < prodShape shape) ∧ p.2.2.length = prodShape p.2.1 := by
    intro p hp
    obtain ⟨pre, a, post, idx, he, hacc, ht, rfl⟩ := (t2 p).1 hp
    obtain ⟨idx', h1, h2, -⟩ := accepted_entry hacc
    rw [ht] at h1
    cases h1
    have hnn := (tgtIndices_facts ht).nonneg fun k hk => hneg a (by simp [he]) k hk
    exact ⟨fun i hi => ⟨hnn i hi, h2 i hi⟩, (tgtIndices_facts ht).size⟩
  have hn : ((indexedIns tgt).map Prod.fst).Nodup := by
    unfold indexedIns
    rw [List.map_map]
    exact hnames
  refine exactPartials_affine hn ?_ ?_ (fun i => if ∃ p ∈ tgt, (i : Int) ∈ p.2.2 then 0 else out i) ?_
  · intro q hq c hc
    obtain ⟨p, hp, rfl⟩ := List.mem_map.1 hq
    rw [indexedPartials_eq hnames hp] at hc
    rw [← (facts p hp).2]
    simpa using hc
  · intro q hq c hc
    obtain ⟨p, hp, rfl⟩ := List.mem_map.1 hq
    rw [indexedPartials_eq hnames hp] at hc
    obtain ⟨i, hi, rfl⟩ := List.mem_map.1 hc
    have := (facts p hp).1 i hi
    omega
  · intro v i
    obtain ⟨r, r1, r2⟩ := indexed_affine tgt (fun p hp i hi => ((facts p hp).1 i hi).1) t1
      (inputsOf (indexedIns tgt) v) out
    unfold indexedOutput
    rw [r1]
    simp only
    rw [r2 i]
    congr 2
    unfold indexedIns
    rw [List.map_map]
    apply List.map_congr_left
    intro p hp
    simp only [Function.comp_apply]
    rw [indexedPartials_eq hnames hp]

/-- The code violates C17 in the partials as well: after `out[:] = a` was accepted and `out[0] = b` was refused, the
declared partials of the component are not exact, at any point. -/
theorem c17_partials_violated (n : Nat) (out : Nat → ℝ) (inp : String → Nat → ℝ) :
    let v := (setItemIdx (OVar.new [n + 1]) (.one (.slice none none none)) "a" [n + 1]).1
    let w := (setItemIdx v (.one (.int 0)) "b" [1]).1
    ¬ ExactPartials (indexedIns w.tgt) (n + 1) (indexedOutput w.tgt out) (indexedPartials w.tgt) inp := by
  intro v w h
  have hw : w.tgt = [("a", [n + 1], (List.range (n + 1)).map fun (k : Nat) => (k : Int)), ("b", [1], [0])] := by
    simp only [w, v]
    rw [setItem_overlap]
  rw [hw] at h
  have hins : indexedIns [("a", [n + 1], (List.range (n + 1)).map fun (k : Nat) => (k : Int)), ("b", [1], [0])] =
      [("a", n + 1), ("b", 1)] := by simp [indexedIns, prodShape]
  rw [hins] at h
  set s0 : Slot [("a", n + 1), ("b", 1)] := ⟨⟨1, by simp⟩, ⟨0, by simp⟩⟩ with hs0
  set s1 : Slot [("a", n + 1), ("b", 1)] := ⟨⟨0, by simp⟩, ⟨0, by simp⟩⟩ with hs1
  have hf : (fun y : Slot [("a", n + 1), ("b", 1)] → ℝ => indexedOutput
      [("a", [n + 1], (List.range (n + 1)).map fun (k : Nat) => (k : Int)), ("b", [1], [0])] out
      (inputsOf [("a", n + 1), ("b", 1)] y) 0) = fun y => y s0 := by
    funext y
    obtain ⟨r, r1, r2⟩ := overlap_output n (inputsOf [("a", n + 1), ("b", 1)] y) out
    unfold indexedOutput
    rw [r1]
    simp only
    rw [r2]
    rfl
  have hL : HasFDerivAt (fun y : Slot [("a", n + 1), ("b", 1)] → ℝ => indexedOutput
      [("a", [n + 1], (List.range (n + 1)).map fun (k : Nat) => (k : Int)), ("b", [1], [0])] out
      (inputsOf [("a", n + 1), ("b", 1)] y) 0)
      (ContinuousLinearMap.proj (R := ℝ) (φ := fun _ : Slot [("a", n + 1), ("b", 1)] => ℝ) s0)
      (slots [("a", n + 1), ("b", 1)] inp) := by
    rw [hf]
    exact (ContinuousLinearMap.proj (R := ℝ) (φ := fun _ : Slot [("a", n + 1), ("b", 1)] => ℝ) s0).hasFDerivAt
  have e := exactPartials_action (by simp) h (i := 0) (by omega) hL (fun s => if s = s1 then 1 else 0)
  simp only [List.map_cons, List.map_nil, List.sum_cons, List.sum_nil, ContinuousLinearMap.proj_apply] at e
  have ha : indexedPartials [("a", [n + 1], (List.range (n + 1)).map fun (k : Nat) => (k : Int)), ("b", [1], [0])] "a" =
      ⟨((List.range (n + 1)).map fun (k : Nat) => (k : Int)).map Int.toNat,
        List.range ((List.range (n + 1)).map fun (k : Nat) => (k : Int)).length,
        List.replicate ((List.range (n + 1)).map fun (k : Nat) => (k : Int)).length 1⟩ := rfl
  have hb : indexedPartials [("a", [n + 1], (List.range (n + 1)).map fun (k : Nat) => (k : Int)), ("b", [1], [0])] "b" =
      ⟨([0] : List Int).map Int.toNat, List.range ([0] : List Int).length, List.replicate ([0] : List Int).length 1⟩ := rfl
  rw [ha, hb] at e
  rw [(indexed_apply (by simp) ((List.nodup_map_iff (fun a b h => by simpa using h)).2 List.nodup_range) _ 0).1 0
      (by simp) (by simp),
    (indexed_apply (by simp) (by simp) _ 0).1 0 (by simp) (by simp)] at e
  have v0 : inputsOf [("a", n + 1), ("b", 1)] (fun s => if s = s1 then 1 else 0) "a" 0 = 1 := by
    show (if (s1 : Slot [("a", n + 1), ("b", 1)]) = s1 then (1 : ℝ) else 0) = 1
    rw [if_pos rfl]
  have hne : s0 ≠ s1 := by
    rw [hs0, hs1]
    intro h
    have := congrArg (fun s => s.1.1) h
    simp at this
  have v1 : inputsOf [("a", n + 1), ("b", 1)] (fun s => if s = s1 then 1 else 0) "b" 0 = 0 := by
    show (if (s0 : Slot [("a", n + 1), ("b", 1)]) = s1 then (1 : ℝ) else 0) = 0
    rw [if_neg hne]
  rw [v0, v1, if_neg hne] at e
  norm_num at e

/-! ## C18 -/

/-- **C18**, overlap: an assignment touching an element already assigned raises, whatever happened in
between. -/
theorem c18_overlap_rejected {shape : List Nat} {pre mid : List Assign} {a b : Assign}
    (ha : AcceptedAt shape pre a) {p q : List Nat} (hp : Touched shape a.1 p) (hq : Touched shape b.1 q)
    {i : Nat} (hip : i ∈ p) (hiq : i ∈ q) :
    ∃ e, (setItemIdx (assigns (OVar.new shape) (pre ++ a :: mid)) b.1 b.2.1 b.2.2).2 = some e := by
  cases hres : (setItemIdx (assigns (OVar.new shape) (pre ++ a :: mid)) b.1 b.2.1 b.2.2).2 with
  | some e => exact ⟨e, rfl⟩
  | none => exact absurd hiq ((c17_one_source ha hres hp hq).2 i hip)

theorem assigns_names_mem {shape : List Nat} {as : List Assign} {p : String × List Nat × List Int}
    (h : p ∈ (assigns (OVar.new shape) as).tgt) : ∃ a ∈ as, a.2.1 = p.1 := by
  induction as using List.reverseRecOn with
  | nil => simp [assigns, OVar.new] at h
  | append_singleton as a ih =>
    rw [assigns_snoc] at h
    have ho := setItem_outcome (assigns (OVar.new shape) as) a.1 a.2.1 a.2.2
    generalize setItemIdx (assigns (OVar.new shape) as) a.1 a.2.1 a.2.2 = r at *
    have key : ∀ idx : List Int, p ∈ (assigns (OVar.new shape) as).tgt ++ [(a.2.1, a.2.2, idx)] →
        ∃ b ∈ as ++ [a], b.2.1 = p.1 := by
      intro idx hp
      rcases List.mem_append.1 hp with hp | hp
      · obtain ⟨b, hb, he⟩ := ih hp
        exact ⟨b, by simp [hb], he⟩
      · obtain rfl := List.mem_singleton.1 hp
        exact ⟨a, by simp, rfl⟩
    cases ho with
    | refused e =>
      obtain ⟨b, hb, he⟩ := ih h
      exact ⟨b, by simp [hb], he⟩
    | overlap idx => exact key idx h
    | accepted idx => exact key idx h

/-- **C18**, which exception: if the output would accept the assignment were it the first one, and the expression was
not assigned to this output before, it is a `ValueError`. -/
theorem c18_overlap_value_error {shape : List Nat} {pre mid : List Assign} {a b : Assign}
    (ha : AcceptedAt shape pre a) {p q : List Nat} (hp : Touched shape a.1 p) (hq : Touched shape b.1 q)
    {i : Nat} (hip : i ∈ p) (hiq : i ∈ q) (hb : AcceptedAt shape [] b)
    (hn : ∀ c ∈ pre ++ a :: mid, c.2.1 ≠ b.2.1) :
    (setItemIdx (assigns (OVar.new shape) (pre ++ a :: mid)) b.1 b.2.1 b.2.2).2 = some .valueError := by
  obtain ⟨idx, h1, -⟩ := accepted_entry hb
  obtain ⟨e, he⟩ := c18_overlap_rejected (mid := mid) ha hp hq hip hiq
  have hs : (assigns (OVar.new shape) (pre ++ a :: mid)).shape = shape := assigns_shape _ _
  have hn' : ¬ ∃ r ∈ (assigns (OVar.new shape) (pre ++ a :: mid)).tgt, r.1 = b.2.1 := by
    rintro ⟨r, hr, hrn⟩
    obtain ⟨c, hc, hcn⟩ := assigns_names_mem hr
    exact hn c hc (hcn.trans hrn)
  unfold setItemIdx at he ⊢
  rw [hs, h1] at he ⊢
  simp only at he ⊢
  rw [if_neg (by simp)] at he ⊢
  split at he
  · rename_i h; rw [if_pos h]
  · rename_i h
    rw [if_neg h, if_neg hn'] at *
    split at he
    · rename_i h'; rw [if_pos h']
    · cases he

/-- `out[0:2] = a`, `out[1] = b`: the hypotheses hold. -/
example : AcceptedAt [3] [] (.one (.slice (some 0) (some 2) none), "a", [2]) ∧
    Touched [3] (.one (.slice (some 0) (some 2) none)) [0, 1] ∧ Touched [3] (.one (.int 1)) [1] ∧
    AcceptedAt [3] [] (.one (.int 1), "b", [1]) := by
  refine ⟨by unfold AcceptedAt; decide, ?_, ⟨by decide, rfl⟩, by unfold AcceptedAt; decide⟩
  exact tgt_touched (s := [2]) (idx := [0, 1]) (by decide) (by intro k h; cases h)

/-- **C18**, range: an accepted assignment touches only elements of the output, unless its key is a negative int. -/
theorem c18_accepted_in_range {shape : List Nat} {pre : List Assign} {a : Assign}
    (ha : AcceptedAt shape pre a) (hneg : ∀ k, a.1 = .one (.int k) → 0 ≤ k) :
    ∃ pos, Touched shape a.1 pos ∧ (Plain shape a.1 → Positions shape a.1 pos) ∧ ∀ i ∈ pos, i < prodShape shape := by
  obtain ⟨idx, h1, h2, -⟩ := accepted_entry ha
  have ht := tgt_touched h1 hneg
  refine ⟨_, ht, fun hp => touched_plain ha hp ht, fun i hi => ?_⟩
  obtain ⟨x, hx, rfl⟩ := List.mem_map.1 hi
  have := h2 x hx
  have := (tgtIndices_facts h1).nonneg hneg x hx
  omega

/-- **C18**, range: an assignment to an element beyond the end raises and leaves no trace; for an int key the exception
is `ValueError`. -/
theorem c18_out_of_range {shape : List Nat} (pre : List Assign) (a : Assign) {pos : List Nat}
    (hp : Touched shape a.1 pos) {i : Nat} (hi : i ∈ pos) (hr : prodShape shape ≤ i) :
    (∃ e, setItemIdx (assigns (OVar.new shape) pre) a.1 a.2.1 a.2.2 =
      (assigns (OVar.new shape) pre, some e)) ∧
    (∀ k, a.1 = .one (.int k) → setItemIdx (assigns (OVar.new shape) pre) a.1 a.2.1 a.2.2 =
      (assigns (OVar.new shape) pre, some .valueError)) := by
  have hs : (assigns (OVar.new shape) pre).shape = shape := assigns_shape _ _
  have hneg : ∀ k, a.1 = .one (.int k) → 0 ≤ k := fun k hk => by rw [hk] at hp; exact hp.1
  constructor
  · have ho := setItem_outcome (assigns (OVar.new shape) pre) a.1 a.2.1 a.2.2
    have hbad : ∀ idx, tgtIndices shape a.1 = .ok (a.2.2, idx) → ¬ ∀ j ∈ idx, j < prodShape shape := by
      intro idx h1 h2
      rw [touched_unique hp (tgt_touched h1 hneg)] at hi
      obtain ⟨x, hx, rfl⟩ := List.mem_map.1 hi
      have := h2 x hx
      have := (tgtIndices_facts h1).nonneg hneg x hx
      omega
    generalize setItemIdx (assigns (OVar.new shape) pre) a.1 a.2.1 a.2.2 = r at *
    cases ho with
    | refused e => exact ⟨e, rfl⟩
    | overlap idx h1 h2 => rw [hs] at h1 h2; exact absurd h2 (hbad idx h1)
    | accepted idx h1 h2 => rw [hs] at h1 h2; exact absurd h2 (hbad idx h1)
  · intro k hk
    rw [hk] at hp ⊢
    have hik : i = k.toNat := by
      rw [hp.2] at hi
      simpa using hi
    have hk0 := hp.1
    unfold setItemIdx
    rw [hs]
    simp only [tgtIndices]
    split
    · rfl
    · rw [if_pos ⟨k, by simp, by omega⟩]

/-- Beyond the end of a vector of three entries. -/
example : Touched [3] (.one (.int 3)) [3] ∧ prodShape [3] ≤ 3 := ⟨⟨by decide, rfl⟩, by decide⟩

/-- The code violates C18: the last element can be assigned twice, as `out[n]` and as `out[-1]`, in an
output of any length `n + 1`. (Running the model then fails: the component cannot unravel a negative
index.) -/
theorem c18_negative_index_accepted (n : Nat) :
    AcceptedAt [n + 1] [] (.one (.int n), "a", [1]) ∧
    AcceptedAt [n + 1] [(.one (.int n), "a", [1])] (.one (.int (-1)), "b", [1]) ∧
    ∀ (x : String → Nat → ℝ) (out : Nat → ℝ),
      indexedPassThrough (assigns (OVar.new [n + 1])
        [(.one (.int n), "a", [1]), (.one (.int (-1)), "b", [1])]).tgt x out = .error .valueError := by
  have h1 : setItemIdx (OVar.new [n + 1]) (.one (.int n)) "a" [1] =
      (⟨[n + 1], [("a", [1], [(n : Int)])], [(n : Int)], true⟩, none) := by
    unfold setItemIdx
    simp only [tgtIndices]
    rw [if_neg (by simp), if_neg, if_neg (by simp [OVar.new]), if_neg (by simp [OVar.new])]
    · simp [OVar.new]
    · rintro ⟨i, hi, hlt⟩
      have : i = n := by simpa using hi
      subst this
      simp only [OVar.new, prodShape, List.prod_cons, List.prod_nil, mul_one] at hlt
      omega
  have h2 : setItemIdx ⟨[n + 1], [("a", [1], [(n : Int)])], [(n : Int)], true⟩ (.one (.int (-1))) "b" [1] =
      (⟨[n + 1], [("a", [1], [(n : Int)]), ("b", [1], [-1])], [(n : Int), -1], true⟩, none) := by
    unfold setItemIdx
    simp only [tgtIndices]
    rw [if_neg (by simp), if_neg, if_neg (by simp), if_neg]
    · simp
    · rintro ⟨i, hi, hc⟩
      have e1 : i = -1 := by simpa using hi
      have e2 : i = n := by simpa using hc
      omega
    · rintro ⟨i, hi, hlt⟩
      have : i = -1 := by simpa using hi
      subst this
      omega
  have ha : ∀ b : List Assign, assigns (OVar.new [n + 1]) ((.one (.int n), "a", [1]) :: b) =
      assigns ⟨[n + 1], [("a", [1], [(n : Int)])], [(n : Int)], true⟩ b := by
    intro b
    show assigns (setItemIdx (OVar.new [n + 1]) (.one (.int n)) "a" [1]).1 b = _
    rw [h1]
  refine ⟨?_, ?_, ?_⟩
  · show (setItemIdx (OVar.new [n + 1]) (.one (.int n)) "a" [1]).2 = none
    rw [h1]
  · unfold AcceptedAt
    rw [ha]
    show (setItemIdx ⟨[n + 1], [("a", [1], [(n : Int)])], [(n : Int)], true⟩ (.one (.int (-1))) "b" [1]).2 = none
    rw [h2]
  · intro x out
    rw [ha]
    show indexedPassThrough (setItemIdx ⟨[n + 1], [("a", [1], [(n : Int)])], [(n : Int)], true⟩
      (.one (.int (-1))) "b" [1]).1.tgt x out = _
    rw [h2]
    unfold indexedPassThrough
    simp only [List.foldlM_cons, List.foldlM_nil]
    rw [if_neg (by simp)]
    simp only [bind, Except.bind]
    rw [if_pos (by simp)]

/-! ## C21 -/

/-- **C21** (partial): what is read with the key of an accepted assignment is what was assigned, if the
read succeeds. Conditions as in C17; missing: reads that raise although the assignment was accepted, see
`c21_negative_stop` and `c21_matrix_int_key`. -/
theorem c21_read_back_partial {shape : List Nat} {as : List Assign} (hno : NoTrace shape as)
    (hneg : ∀ a ∈ as, ∀ k, a.1 = .one (.int k) → 0 ≤ k) {α : Type} (x : String → Nat → α)
    (out : Nat → α) (reads : List Key) :
    ∃ r, indexedPassThrough (assigns (OVar.new shape) as).tgt x out = .ok r ∧
      ∀ pre a post, as = pre ++ a :: post → AcceptedAt shape pre a →
        ∀ ex, (getItem (getItems (IVar.new shape shape) reads) a.1).2 = .ok ex →
          ex.shape = a.2.2 ∧
          decomposeCompute ex.src r = (List.range (prodShape a.2.2)).map (x a.2.1) := by
  obtain ⟨r, r1, r2, -⟩ := c17_values_partial hno hneg x out
  refine ⟨r, r1, ?_⟩
  intro pre a post he hacc ex hex
  obtain ⟨sels, s1, s2, s3⟩ := c19_never_wrong reads a.1 hex
  have hplain : Plain shape a.1 := by
    rcases hkey : a.1 with e | es
    · rw [hkey] at s1
      have hn : ∃ n, shape = [n] := by
        cases s1 with
        | cons h1 h2 => cases h2; exact ⟨_, rfl⟩
      cases e with
      | int k => exact ⟨hneg a (by simp [he]) k hkey, hn⟩
      | slice _ _ _ => exact hn
    · trivial
  obtain ⟨idx, h1, h2, -⟩ := accepted_entry hacc
  obtain ⟨sels', u1, u2, u3⟩ := tgt_positions h1 h2 hplain
  rw [keySelects_unique u1 s1] at u2
  refine ⟨by rw [s2, u2], ?_⟩
  obtain ⟨pos, -, p1, p2, p3⟩ := r2 pre a post he hacc
  have p1 := p1 hplain
  have hpos : pos = ex.src := positions_unique p1 ⟨sels, s1, s3⟩
  subst hpos
  apply List.ext_getElem
  · simp [decomposeCompute, p2]
  · intro k hk1 hk2
    simp only [decomposeCompute, List.getElem_map, List.getElem_range]
    exact p3 k (by simpa [decomposeCompute] using hk1)

/-- Reading the column assigned before from a 2 by 3 output: position and order agree. -/
example : let as : List Assign := [(.tuple [.slice none none none, .int 2], "a", [2, 1])]
    (getItem (IVar.new [2, 3] [2, 3]) (.tuple [.slice none none none, .int 2])).2 =
      .ok ⟨1, [2, 1], [2, 5]⟩ ∧
    (setItemIdx (assigns (OVar.new [2, 3]) []) as[0].1 as[0].2.1 as[0].2.2).2 = none := by decide

/-- **C21**, what can be read back: an accepted key whose items are within the shape, one per axis, unless the first
read of the output failed. -/
theorem c21_readable {shape : List Nat} {as : List Assign} (hno : NoTrace shape as)
    (hneg : ∀ a ∈ as, ∀ k, a.1 = .one (.int k) → 0 ≤ k) {α : Type} (x : String → Nat → α)
    (out : Nat → α) (reads : List Key)
    (hfirst : ∀ k ∈ reads.head?, ∃ s, npIndexShape shape k.items = .ok s) {pre post : List Assign} {a : Assign}
    (has : as = pre ++ a :: post) (ha : AcceptedAt shape pre a) (hr : List.Forall₂ ItemInRange shape a.1.items) :
    ∃ r ex, indexedPassThrough (assigns (OVar.new shape) as).tgt x out = .ok r ∧
      (getItem (getItems (IVar.new shape shape) reads) a.1).2 = .ok ex ∧ ex.shape = a.2.2 ∧
      decomposeCompute ex.src r = (List.range (prodShape a.2.2)).map (x a.2.1) := by
  obtain ⟨r, r1, r2⟩ := c21_read_back_partial hno hneg x out reads
  obtain ⟨ex, hex⟩ := c19_accepts reads a.1 hfirst hr
  exact ⟨r, ex, r1, hex, r2 pre a post has ha ex hex⟩

/-! ## Assignments that are accepted (C18) -/

/-- The list computed for an item of a key within an axis of length `n`, when assigning. -/
def tgtList (n : Nat) : KeyItem → Except PyErr (List Int)
  | .int k => sliceToList (some k) (some (k + 1)) none (some n)
  | .slice a b s => sliceToList a b s (some n)

theorem sliceToList_nonneg {start step : Option Int} {stop : Int} {size : Option Nat} (h : 0 ≤ stop) :
    sliceToList start (some stop) step size = checkedRange (start.getD 0) stop (step.getD 1) := by
  unfold sliceToList
  cases start <;> exact if_neg (by omega)

theorem tgtList_complete {n : Nat} {e : KeyItem} (h : ItemInRange n e) :
    ∃ l, tgtList n e = .ok l ∧ ∀ i ∈ l, 0 ≤ i ∧ i < (n : Int) := by
  obtain ⟨l, h1, h2⟩ := item_complete h
  refine ⟨l, ?_, h2⟩
  cases e with
  | int k =>
    have hk := h.1
    simp only [normItem] at h1
    rw [sliceToList_nonneg (by omega)] at h1
    simp only [tgtList]
    rw [sliceToList_nonneg (by omega)]
    exact h1
  | slice a b s =>
    obtain ⟨-, hb, -⟩ := h
    simp only [normItem] at h1
    cases b with
    | none =>
      rw [sliceToList_nonneg (by simp)] at h1
      cases a <;> exact h1
    | some j =>
      have hj : 0 ≤ j := (hb j rfl).1
      rw [sliceToList_nonneg (by exact hj)] at h1
      simp only [tgtList]
      rw [sliceToList_nonneg hj]
      exact h1

theorem tgtLists_complete {shape : List Nat} {es : List KeyItem} (h : List.Forall₂ ItemInRange shape es) :
    ∃ ls, tgtLists shape es = .ok ls ∧
      List.Forall₂ (fun l (n : Nat) => ∀ i ∈ l, 0 ≤ i ∧ i < (n : Int)) ls shape := by
  induction h with
  | nil => exact ⟨[], rfl, .nil⟩
  | cons h1 _ ih =>
    rename_i n e ns es _
    obtain ⟨ls, i1, i2⟩ := ih
    obtain ⟨l, hl, hb⟩ := tgtList_complete h1
    refine ⟨l :: ls, ?_, .cons hb i2⟩
    cases e <;> simp only [tgtList] at hl <;> simp only [tgtLists, hl, i1] <;> rfl

/-- The indices of a key within the shape. -/
theorem tgtIndices_complete {shape : List Nat} {key : Key} (h : List.Forall₂ ItemInRange shape key.items) :
    ∃ s idx, tgtIndices shape key = .ok (s, idx) ∧ ∀ i ∈ idx, i < (prodShape shape : Int) := by
  cases key with
  | tuple es =>
    obtain ⟨ls, h1, h2⟩ := tgtLists_complete h
    have h3 : tgtIndices shape (.tuple es) = .ok (ls.map List.length,
        ((cartesian (ls.map (List.map Int.toNat))).map (ravel shape)).map Int.ofNat) := by
      have h1' : tgtLists shape es = .ok ls := h1
      simp only [tgtIndices, h1', ravelGrid_of h2, Except.map]
    obtain ⟨_, -, -, -, h4⟩ := (tgtIndices_facts h3).tuple es rfl
    exact ⟨_, _, h3, h4⟩
  | one e =>
    obtain ⟨n, rfl⟩ : ∃ n, shape = [n] := List.length_eq_one_iff.1 h.length_eq
    have h' : ItemInRange n e := by
      cases h with
      | cons h _ => exact h
    cases e with
    | int k =>
      refine ⟨_, _, rfl, fun i hi => ?_⟩
      obtain rfl := List.mem_singleton.1 hi
      simpa [prodShape] using h'.2
    | slice a b s =>
      obtain ⟨l, hl, hb⟩ := tgtList_complete h'
      simp only [tgtList] at hl
      refine ⟨[l.length], l, by simp only [tgtIndices, hl, Except.map], fun i hi => ?_⟩
      simpa [prodShape] using (hb i hi).2

/-- **C18**, what is accepted: an assignment whose key lies within the output, one item per axis, of an expression with
the shape of the selected block, if the expression was not assigned to the output before and the block is disjoint from
all blocks assigned before. -/
theorem c18_accepts {shape : List Nat} {pre : List Assign} {a : Assign} (hno : NoTrace shape pre)
    (hr : List.Forall₂ ItemInRange shape a.1.items) (hneg : ∀ c ∈ pre, ∀ k, c.1 = .one (.int k) → 0 ≤ k)
    {sels : List (List Nat)} (hs : KeySelects shape a.1.items sels) (hsh : a.2.2 = sels.map List.length)
    (hn : ∀ c ∈ pre, c.2.1 ≠ a.2.1)
    (hd : ∀ c ∈ pre, ∀ p q, Touched shape c.1 p → Positions shape a.1 q → ∀ i ∈ p, i ∉ q) :
    AcceptedAt shape pre a := by
  obtain ⟨s, idx, h1, h2⟩ := tgtIndices_complete hr
  have hp : Plain shape a.1 := by
    cases hk : a.1 with
    | tuple es => trivial
    | one e =>
      rw [hk] at hr
      obtain ⟨n, rfl⟩ : ∃ n, shape = [n] := List.length_eq_one_iff.1 hr.length_eq
      cases hr with
      | cons h _ =>
        cases e with
        | int k => exact ⟨h.1, n, rfl⟩
        | slice => exact ⟨n, rfl⟩
  obtain ⟨sels', s1, s2, s3⟩ := tgt_positions h1 h2 hp
  obtain rfl := keySelects_unique s1 hs
  have hpos : Positions shape a.1 (idx.map Int.toNat) := ⟨_, s1, s3⟩
  have hss : (assigns (OVar.new shape) pre).shape = shape := assigns_shape _ _
  obtain ⟨-, t2⟩ := assigns_tgt hno
  unfold AcceptedAt setItemIdx
  rw [hss, h1]
  simp only
  rw [if_neg (by rw [s2, hsh]; simp), if_neg, if_neg, if_neg]
  · rintro ⟨i, hi, hc⟩
    rw [assigns_checked, List.mem_flatMap] at hc
    obtain ⟨p, hp, hip⟩ := hc
    obtain ⟨pre', c, post, idx', he, hacc, ht, rfl⟩ := (t2 p).1 hp
    have hcm : c ∈ pre := by rw [he]; simp
    have ht' := tgt_touched ht (hneg c hcm)
    exact hd c hcm _ _ ht' hpos i.toNat (List.mem_map.2 ⟨i, hip, rfl⟩) (List.mem_map.2 ⟨i, hi, rfl⟩)
  · rintro ⟨p, hp, he⟩
    obtain ⟨pre', c, post, idx', hc, -, -, rfl⟩ := (t2 p).1 hp
    exact hn c (by rw [hc]; simp) he
  · rintro ⟨i, hi, hge⟩
    have := h2 i hi
    omega

/-- `out[0:2] = a`, then `out[2] = b`: the hypotheses hold. -/
example : List.Forall₂ ItemInRange [3] (Key.one (.int 2)).items ∧ KeySelects [3] (Key.one (.int 2)).items [[2]] ∧
    NoTrace [3] [(.one (.slice (some 0) (some 2) none), "a", [2])] ∧
    ∀ p q, Touched [3] (.one (.slice (some 0) (some 2) none)) p → Positions [3] (.one (.int 2)) q →
      ∀ i ∈ p, i ∉ q := by
  have h2 : KeySelects [3] (Key.one (.int 2)).items [[2]] := .cons ⟨by decide, by decide, rfl⟩ .nil
  refine ⟨.cons ⟨by decide, by decide⟩ .nil, h2, noTrace_of_accepted ?_, ?_⟩
  · intro pre a post he
    rcases pre with _ | ⟨_, _ | _⟩ <;> simp at he
    obtain ⟨rfl, -⟩ := he
    unfold AcceptedAt
    decide
  · intro p q hp hq
    rw [touched_unique hp (tgt_touched (s := [2]) (idx := [0, 1]) (by decide) (by intro k h; cases h)),
      positions_unique hq ⟨_, h2, isBlock_one 3 [2]⟩]
    decide

end OM
