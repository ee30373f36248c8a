import Verif.Lemmas.EinsumExact
import Verif.Lemmas.Subscripts

/-! # einsum (C44, C45, C46) -/

namespace OM
open Spec

/-! ## The announced shape -/

theorem firstAxis_ok {ch : Char} {ops : List (List Char)} {shapes : List (List Nat)} {o : Option Nat}
    (hl : ops.length = shapes.length) (h : firstAxis ch ops shapes = .ok o) :
    (o = none ∧ ∀ S ∈ ops, ch ∉ S) ∨ ∃ n, o = some n ∧ (ch, n) ∈ npAxes (ops.zip shapes) := by
  induction ops generalizing shapes with
  | nil => simp only [firstAxis] at h; cases h; exact .inl ⟨rfl, by simp⟩
  | cons S ops ih =>
    match shapes, hl with
    | s :: shapes, hl =>
      rw [firstAxis] at h
      by_cases hc : ch ∈ S
      · rw [if_pos hc] at h
        split at h
        · cases h
        · rename_i n hn
          cases h
          obtain ⟨h1, h2⟩ := List.getElem?_eq_some_iff.1 hn
          refine .inr ⟨n, rfl, ?_⟩
          rw [List.zip_cons_cons, npAxes_cons]
          refine List.mem_append_left _ (List.mem_iff_getElem.2 ⟨S.idxOf ch, ?_, ?_⟩)
          · have := List.idxOf_lt_length_of_mem hc
            simp; omega
          · simp [h2]
      · rw [if_neg hc] at h
        rcases ih (by simpa using hl) h with ⟨h1, h2⟩ | ⟨n, h1, h2⟩
        · refine .inl ⟨h1, fun T hT => ?_⟩
          rcases List.mem_cons.1 hT with rfl | hT
          · exact hc
          · exact h2 T hT
        · refine .inr ⟨n, h1, ?_⟩
          rw [List.zip_cons_cons, npAxes_cons]
          exact List.mem_append_right _ h2

theorem announced {ops : List (List Char)} {out : List Char} {shapes : List (List Nat)} {shape : List Nat}
    (hl : ops.length = shapes.length) (hout : ∀ ch ∈ out, ch ∈ (npAxes (ops.zip shapes)).map Prod.fst)
    (h : computeEinsumShape (ops ++ [out]) shapes = .ok shape) :
    (out = [] ∧ shape = [1]) ∨
      (out ≠ [] ∧ List.Forall₂ (fun ch n => (ch, n) ∈ npAxes (ops.zip shapes)) out shape) := by
  unfold computeEinsumShape at h
  simp only [List.getLastD_concat, List.dropLast_concat] at h
  split at h
  · rename_i h1
    exact .inl ⟨h1, (Except.ok.inj h).symm⟩
  · rename_i h1
    refine .inr ⟨h1, ?_⟩
    clear h1
    split at h
    · cases h
    · rename_i l hm
      obtain rfl := Except.ok.inj h
      clear h
      induction out generalizing l with
      | nil => cases hm; exact .nil
      | cons ch out ih =>
        rw [List.mapM_cons] at hm
        cases h1 : firstAxis ch ops shapes with
        | error e => rw [h1] at hm; cases hm
        | ok o =>
          cases h2 : out.mapM fun ch => firstAxis ch ops shapes with
          | error e => rw [h1, h2] at hm; cases hm
          | ok l' =>
            rw [h1, h2] at hm
            obtain rfl : o :: l' = l := Except.ok.inj hm
            have h3 := ih (fun ch hc => hout ch (by simp [hc])) l' h2
            rcases firstAxis_ok hl h1 with ⟨_, hno⟩ | ⟨n, rfl, hn⟩
            · exfalso
              obtain ⟨a, ha, rfl⟩ := List.mem_map.1 (hout ch (by simp))
              obtain ⟨p, hp, hap⟩ := List.mem_flatMap.1 ha
              exact hno p.1 (List.of_mem_zip hp).1 (List.of_mem_zip hap).1
            · exact .cons hn h3

/-- Everything an accepted string with an arrow determines. -/
structure Accepted (operands : List (String × List Nat)) (ops : List (List Char)) (out : List Char)
    (c : Einsum) : Prop where
  names : c.names = operands.map Prod.fst
  shapes : c.shapes = operands.map Prod.snd
  lst : c.lst = ops ++ [out]
  npOps : c.npOps = ops
  npOut : c.npOut = out
  unused : c.unused = alphabet.filter (· ∉ subscripts ops out)
  len : ops.length = operands.length
  ok : NpEinsumOk (ops.zip (operands.map Prod.snd)) out
  shape : computeEinsumShape (ops ++ [out]) (operands.map Prod.snd) = .ok c.shape
  size : prodShape (npEinsumShape (ops.zip (operands.map Prod.snd)) out) = prodShape c.shape ∨
    prodShape (npEinsumShape (ops.zip (operands.map Prod.snd)) out) = 1

theorem stdEinsum_ok {operands : List (String × List Nat)} {ops : List (List Char)} {out : List Char}
    (hne : ops ≠ []) (ho : ∀ o ∈ ops, Alpha o) (hout : Alpha out) {c : Einsum}
    (h : stdEinsum operands (subscripts ops out) = .ok c) : Accepted operands ops out c := by
  unfold stdEinsum at h
  split at h
  · cases h
  · simp only at h
    rw [einsumToList_subscripts hne ho hout, npParse_subscripts hne ho hout] at h
    split at h
    · cases h
    · rename_i shape hs
      simp only at h
      split at h
      · cases h
      · rename_i h1
        split at h
        · cases h
        · rename_i h2
          split at h
          · cases h
          · rename_i h3
            obtain rfl := Except.ok.inj h
            refine ⟨rfl, rfl, rfl, rfl, rfl, rfl, not_not.1 h1, not_not.1 h2, hs, ?_⟩
            by_contra h4
            push Not at h4
            exact h3 h4

theorem prod_eq_one {l : List Nat} (h : prodShape l = 1) : ∀ n ∈ l, n = 1 := by
  intro n hn
  have := List.dvd_prod hn
  unfold prodShape at h
  rw [h] at this
  exact Nat.dvd_one.1 this

section
variable {operands : List (String × List Nat)} {ops : List (List Char)} {out : List Char} {c : Einsum}
variable (h : Accepted operands ops out c)
include h

theorem Accepted.t_eq : c.t = ops.zip (operands.map Prod.snd) := by
  rw [Einsum.t, h.npOps, h.shapes]

theorem Accepted.lenShapes : ops.length = (operands.map Prod.snd).length := by rw [List.length_map, h.len]

theorem Accepted.announced : (out = [] ∧ c.shape = [1]) ∨ (out ≠ [] ∧
    List.Forall₂ (fun ch n => (ch, n) ∈ npAxes (ops.zip (operands.map Prod.snd))) out c.shape) :=
  OM.announced h.lenShapes h.ok.2.2.2.2 h.shape

/-- Each announced length is one or the length of the label. -/
theorem Accepted.lengths (hne : out ≠ []) : List.Forall₂ (fun n d => n = 1 ∨ n = d) c.shape
    (npEinsumShape (ops.zip (operands.map Prod.snd)) out) := by
  rcases h.announced with ⟨h1, _⟩ | ⟨_, h2⟩
  · exact absurd h1 hne
  · unfold npEinsumShape
    refine List.forall₂_map_right_iff.2 ?_
    exact h2.flip.imp fun n ch hm => h.ok.2.2.1 _ hm

theorem Accepted.sizes : prodShape (npEinsumShape (ops.zip (operands.map Prod.snd)) out) = prodShape c.shape := by
  rcases h.size with hs | hs
  · exact hs
  · rcases h.announced with ⟨h1, h2⟩ | ⟨h1, _⟩
    · rw [h2, h1]; rfl
    · have hf := h.lengths h1
      have hone := prod_eq_one hs
      have : c.shape = npEinsumShape (ops.zip (operands.map Prod.snd)) out := by
        revert hf hone
        generalize npEinsumShape (ops.zip (operands.map Prod.snd)) out = m
        generalize c.shape = l
        intro hf hone
        induction hf with
        | nil => rfl
        | cons hx _ ih =>
          have h3 := hone _ (List.mem_cons_self)
          rw [ih fun n hn => hone n (by simp [hn])]
          congr 1
          omega
      rw [this]

end

theorem prod_le_of {l m : List Nat} (h : List.Forall₂ (fun n d => n = 1 ∨ n = d) l m) (hp : ∀ d ∈ m, 0 < d) :
    prodShape l ≤ prodShape m := by
  induction h with
  | nil => exact le_refl _
  | @cons a b l m hx _ ih =>
    have hb := hp b (by simp)
    have := ih fun d hd => hp d (by simp [hd])
    rw [prodShape_cons, prodShape_cons]
    exact Nat.mul_le_mul (by omega) this

theorem eq_of_prod_eq {l m : List Nat} (h : List.Forall₂ (fun n d => n = 1 ∨ n = d) l m) (hp : ∀ d ∈ m, 0 < d)
    (he : prodShape m = prodShape l) : l = m := by
  induction h with
  | nil => rfl
  | @cons a b l m hx hl ih =>
    have hb := hp b (by simp)
    have hp' : ∀ d ∈ m, 0 < d := fun d hd => hp d (by simp [hd])
    have hle := prod_le_of hl hp'
    rw [prodShape_cons, prodShape_cons] at he
    have hpos : 0 < prodShape m := List.prod_pos hp'
    have hab : a ≤ b := by omega
    have h1 : a = b := by
      by_contra hne
      have : a < b := by omega
      have h2 : a * prodShape l ≤ a * prodShape m := Nat.mul_le_mul_left _ hle
      have h3 : a * prodShape m < b * prodShape m := Nat.mul_lt_mul_of_pos_right this hpos
      omega
    subst h1
    rw [ih hp' (Nat.eq_of_mul_eq_mul_left hb he)]

/-! ## C44 -/

/-- `len` gives the number of values of each label: all axes with a label have its length, or length one if they
are broadcast, and not all are broadcast. -/
structure Spec.Lengths (operands : List (String × List Nat)) (ops : List (List Char)) (len : Char → Nat) :
    Prop where
  axis : ∀ k (hk : k < ops.length) (hk' : k < operands.length) j (hj : j < ops[k].length)
    (hj' : j < operands[k].2.length), operands[k].2[j] = 1 ∨ operands[k].2[j] = len ops[k][j]
  some : ∀ o ∈ ops, ∀ ch ∈ o, ∃ k, ∃ (hk : k < ops.length) (hk' : k < operands.length),
    ∃ j, ∃ (hj : j < ops[k].length) (hj' : j < operands[k].2.length),
      ops[k][j] = ch ∧ operands[k].2[j] = len ch
  pos : ∀ ch, 0 < len ch

/-- The labels summed over. -/
def Spec.summed (ops : List (List Char)) (out : List Char) : List Char :=
  (ops.flatten.filter (· ∉ out)).dedup

/-- The value of a label. -/
def Spec.value (labels : List Char) (idx : List Nat) (ch : Char) : Nat := ((labels.zip idx).lookup ch).getD 0

/-- The factor that an operand contributes: broadcast axes are read at zero. -/
def Spec.factor (inp : String → Nat → ℝ) (p : String × List Nat) (labels : List Char) (v : Char → Nat) : ℝ :=
  inp p.1 (ravel p.2 (List.zipWith (fun ch n => min (v ch) (n - 1)) labels p.2))

theorem mem_npAxes_iff {ops : List (List Char)} {shapes : List (List Nat)} {a : Char × Nat} :
    a ∈ npAxes (ops.zip shapes) ↔ ∃ k, ∃ (hk : k < ops.length) (hk' : k < shapes.length),
      ∃ j, ∃ (hj : j < ops[k].length) (hj' : j < shapes[k].length), a = (ops[k][j], shapes[k][j]) := by
  constructor
  · intro ha
    obtain ⟨p, hp, hap⟩ := List.mem_flatMap.1 ha
    obtain ⟨k, hk, rfl⟩ := List.mem_iff_getElem.1 hp
    obtain ⟨j, hj, rfl⟩ := List.mem_iff_getElem.1 hap
    simp only [List.length_zip] at hk
    simp only [List.getElem_zip, List.length_zip] at hj
    exact ⟨k, by omega, by omega, j, by omega, by omega, by simp⟩
  · rintro ⟨k, hk, hk', j, hj, hj', rfl⟩
    refine List.mem_flatMap.2 ⟨(ops[k], shapes[k]), List.mem_iff_getElem.2 ⟨k, by simp; omega, by simp⟩, ?_⟩
    exact List.mem_iff_getElem.2 ⟨j, by simp; omega, by simp⟩

theorem npDim_eq {operands : List (String × List Nat)} {ops : List (List Char)} {len : Char → Nat}
    (hlen : Lengths operands ops len) {o : List Char} (ho : o ∈ ops) {ch : Char} (hc : ch ∈ o) :
    npDim (npAxes (ops.zip (operands.map Prod.snd))) ch = len ch := by
  have hall : ∀ n ∈ ((npAxes (ops.zip (operands.map Prod.snd))).filter fun a => a.1 = ch).map Prod.snd,
      n = 1 ∨ n = len ch := by
    intro n hn
    obtain ⟨a, ha, rfl⟩ := List.mem_map.1 hn
    obtain ⟨ha, hch⟩ := List.mem_filter.1 ha
    obtain ⟨k, hk, hk', j, hj, hj', rfl⟩ := mem_npAxes_iff.1 ha
    have hch : ops[k][j] = ch := of_decide_eq_true hch
    have := hlen.axis k hk (by simpa using hk') j hj (by simpa using hj')
    rw [hch] at this
    simpa using this
  have hsome : len ch ∈ ((npAxes (ops.zip (operands.map Prod.snd))).filter fun a => a.1 = ch).map Prod.snd := by
    obtain ⟨k, hk, hk', j, hj, hj', h1, h2⟩ := hlen.some o ho ch hc
    refine List.mem_map.2 ⟨(ch, len ch), List.mem_filter.2 ⟨?_, by simp⟩, rfl⟩
    exact mem_npAxes_iff.2 ⟨k, hk, by simpa using hk', j, hj, by simpa using hj', by simp [h1, h2]⟩
  unfold npDim
  revert hall hsome
  generalize ((npAxes (ops.zip (operands.map Prod.snd))).filter fun a => a.1 = ch).map Prod.snd = l
  intro hall hsome
  cases hf : l.find? (· ≠ 1) with
  | none =>
    have := List.find?_eq_none.1 hf (len ch) hsome
    simp at this
    simp [this]
  | some n =>
    have h1 := List.find?_some hf
    have h2 := List.mem_of_find?_eq_some hf
    rcases hall n h2 with h3 | h3
    · simp [h3] at h1
    · simp [h3]

theorem map_fst_npAxes {ops : List (List Char)} {shapes : List (List Nat)} (hl : ops.length = shapes.length)
    (hr : ∀ p ∈ ops.zip shapes, p.1.length = p.2.length) :
    (npAxes (ops.zip shapes)).map Prod.fst = ops.flatten := by
  induction ops generalizing shapes with
  | nil => rfl
  | cons o ops ih =>
    match shapes, hl with
    | s :: shapes, hl =>
      rw [List.zip_cons_cons, npAxes_cons, List.map_append, List.flatten_cons,
        ih (by simpa using hl) fun p hp => hr p (by simp [hp])]
      have : o.length = s.length := hr (o, s) (by simp)
      rw [List.map_fst_zip (le_of_eq this)]

theorem value_eq {labels : List Char} {idx : List Nat} (hl : labels.length = idx.length) (ch : Char) :
    value labels idx ch = npLookup labels idx ch := by
  unfold value npLookup
  induction labels generalizing idx with
  | nil => cases idx <;> simp at hl ⊢
  | cons x labels ih =>
    match idx, hl with
    | i :: idx, hl =>
      rw [List.zip_cons_cons, List.lookup_cons, List.idxOf_cons]
      by_cases hx : ch = x
      · subst hx; simp
      · have hx' : ¬ x = ch := fun e => hx e.symm
        have := ih (idx := idx) (by simpa using hl)
        simp only [List.getD_eq_getElem?_getD] at this
        have hb : (ch == x) = false := by simpa using hx
        have hb' : (x == ch) = false := by simpa using hx'
        simp [hb, hb', this]

theorem Accepted.summed_eq {operands : List (String × List Nat)} {ops : List (List Char)} {out : List Char}
    {c : Einsum} (h : Accepted operands ops out c) :
    npSummed (ops.zip (operands.map Prod.snd)) out = summed ops out := by
  unfold npSummed summed
  rw [map_fst_npAxes h.lenShapes fun p hp => (h.ok.2.1 p hp).1]

theorem Accepted.shape_eq {operands : List (String × List Nat)} {ops : List (List Char)} {out : List Char}
    {c : Einsum} (h : Accepted operands ops out c) {len : Char → Nat} (hlen : Lengths operands ops len) :
    npEinsumShape (ops.zip (operands.map Prod.snd)) out = out.map len := by
  refine List.map_congr_left fun ch hc => ?_
  obtain ⟨a, ha, rfl⟩ := List.mem_map.1 (h.ok.2.2.2.2 ch hc)
  obtain ⟨p, hp, hap⟩ := List.mem_flatMap.1 ha
  exact npDim_eq hlen (List.of_mem_zip hp).1 (List.of_mem_zip hap).1

/-- **C44**, shape: the shape announced for the expression is that of the result, and `(1,)` for a scalar. -/
theorem c44_shape {operands : List (String × List Nat)} {ops : List (List Char)} {out : List Char}
    (hne : ops ≠ []) (ho : ∀ o ∈ ops, Alpha o) (hout : Alpha out) {len : Char → Nat}
    (hlen : Lengths operands ops len) {c : Einsum}
    (h : stdEinsum operands (subscripts ops out) = .ok c) :
    c.shape = if out = [] then [1] else out.map len := by
  have ha := stdEinsum_ok hne ho hout h
  by_cases hn : out = []
  · rw [if_pos hn]
    rcases ha.announced with ⟨_, h2⟩ | ⟨h1, _⟩
    · exact h2
    · exact absurd hn h1
  · rw [if_neg hn, ← ha.shape_eq hlen]
    refine eq_of_prod_eq (ha.lengths hn) ?_ ha.sizes
    rw [ha.shape_eq hlen]
    intro d hd
    obtain ⟨ch, _, rfl⟩ := List.mem_map.1 hd
    exact hlen.pos ch

/-- What NumPy computes at the multi-index `o`. -/
theorem npEinsum_value {operands : List (String × List Nat)} {ops : List (List Char)} {out : List Char}
    {len : Char → Nat} (hlen : Lengths operands ops len) (hl : ops.length = operands.length)
    (hok : NpEinsumOk (ops.zip (operands.map Prod.snd)) out) (inp : String → Nat → ℝ) {o : List Nat}
    (hi : InBounds (out.map len) o) {xs : Nat → Nat → ℝ}
    (hxs : ∀ k (hk : k < operands.length), xs k = inp operands[k].1) :
    npEinsum (ops.zip (operands.map Prod.snd)) out xs (ravel (out.map len) o) =
      ((indices ((summed ops out).map len)).map fun q =>
        (List.zipWith (fun p labels => factor inp p labels (value (out ++ summed ops out) (o ++ q)))
          operands ops).prod).sum := by
  have hsh : npEinsumShape (ops.zip (operands.map Prod.snd)) out = out.map len := by
    refine List.map_congr_left fun ch hc => ?_
    obtain ⟨a, ha, rfl⟩ := List.mem_map.1 (hok.2.2.2.2 ch hc)
    obtain ⟨p, hp, hap⟩ := List.mem_flatMap.1 ha
    exact npDim_eq hlen (List.of_mem_zip hp).1 (List.of_mem_zip hap).1
  have hsum : npSummed (ops.zip (operands.map Prod.snd)) out = summed ops out := by
    unfold npSummed summed
    rw [map_fst_npAxes (by simpa using hl) fun p hp => (hok.2.1 p hp).1]
  have hdims : (summed ops out).map (npDim (npAxes (ops.zip (operands.map Prod.snd)))) =
      (summed ops out).map len := by
    refine List.map_congr_left fun ch hc => ?_
    simp only [summed, List.mem_dedup, List.mem_filter, List.mem_flatten] at hc
    obtain ⟨⟨p, hp, hc⟩, _⟩ := hc
    exact npDim_eq hlen hp hc
  unfold npEinsum
  simp only
  rw [hsh, hsum, hdims, unravel_ravel hi]
  refine congrArg List.sum (List.map_congr_left fun q hq => congrArg List.prod ?_)
  have hq' : InBounds ((summed ops out).map len) q := by
    rw [cartesian_range] at hq
    obtain ⟨k, hk, rfl⟩ := List.mem_map.1 hq
    exact unravel_inBounds (List.mem_range.1 hk)
  have hall : InBounds ((out ++ summed ops out).map len) (o ++ q) := by
    rw [List.map_append]; exact inBounds_append hi hq'
  have hlo : (out ++ summed ops out).length = (o ++ q).length := by
    have := inBounds_length hall
    rw [List.length_map] at this
    exact this.symm
  apply List.ext_getElem
  · simp [hl]
  · intro k h1 h2
    have hk : k < ops.length ∧ k < operands.length := by
      simp only [List.length_map, List.length_range, List.length_zip] at h1; omega
    simp only [List.getElem_map, List.getElem_range, List.getElem_zipWith, factor]
    have hpair : (ops.zip (operands.map Prod.snd)).getD k ([], []) = (ops[k], operands[k].2) := by
      simp [List.getD_eq_getElem?_getD, hk.1, hk.2]
    have hmem : (ops[k], operands[k].2) ∈ ops.zip (operands.map Prod.snd) :=
      List.mem_iff_getElem.2 ⟨k, by simp; omega, by simp⟩
    have hleneq : ops[k].length = operands[k].2.length := (hok.2.1 _ hmem).1
    rw [hxs k hk.2, hpair]
    unfold npPos
    simp only
    congr 2
    apply List.ext_getElem
    · simp
    · intro j h3 h4
      simp only [List.length_zipWith] at h3
      simp only [List.getElem_zipWith]
      rw [value_eq hlo]
      have hlab : ops[k][j]'(by omega) ∈ out ++ summed ops out := by
        by_cases hin : ops[k][j]'(by omega) ∈ out
        · simp [hin]
        · refine List.mem_append_right _ ?_
          simp only [summed, List.mem_dedup, List.mem_filter, List.mem_flatten]
          exact ⟨⟨ops[k], List.getElem_mem _, List.getElem_mem _⟩, by simpa using hin⟩
      have hlt := getD_lt_of_inBounds hall hlab
      have := hlen.axis k hk.1 hk.2 j (by omega) (by omega)
      split
      · omega
      · rename_i hn1
        rcases this with h5 | h5
        · exact absurd h5 hn1
        · omega

/-- **C44**, value: at the multi-index `o`, the sum over all values of the labels that are not in the result of
the product of the operands. -/
theorem c44_value {operands : List (String × List Nat)} {ops : List (List Char)} {out : List Char}
    (hne : ops ≠ []) (ho : ∀ o ∈ ops, Alpha o) (hout : Alpha out) {len : Char → Nat}
    (hlen : Lengths operands ops len) {c : Einsum}
    (h : stdEinsum operands (subscripts ops out) = .ok c) (inp : String → Nat → ℝ) {o : List Nat}
    (hi : InBounds (out.map len) o) :
    c.compute inp (ravel (out.map len) o) = ((indices ((summed ops out).map len)).map fun q =>
      (List.zipWith (fun p labels => factor inp p labels (value (out ++ summed ops out) (o ++ q)))
        operands ops).prod).sum := by
  have ha := stdEinsum_ok hne ho hout h
  have ht := ha.t_eq
  have hcomp : c.compute inp (ravel (out.map len) o) =
      npEinsum c.t c.npOut (fun k => inp (c.name k)) (ravel (out.map len) o) := by
    refine if_pos ?_
    show prodShape (npEinsumShape c.t c.npOut) = prodShape c.shape
    rw [ht, ha.npOut]; exact ha.sizes
  rw [hcomp, ht, ha.npOut]
  refine npEinsum_value hlen ha.len ha.ok inp hi fun k hk => ?_
  simp [Einsum.name, ha.names, List.getD_eq_getElem?_getD, hk]

/-- A matrix product. -/
example : Lengths [("x", [2, 3]), ("y", [3, 4])] ["ij".toList, "jk".toList]
    (fun ch => if ch = 'i' then 2 else if ch = 'j' then 3 else 4) := by
  refine ⟨by decide, by decide, ?_⟩
  intro ch; split <;> (try split) <;> decide

example : ∃ c, stdEinsum [("x", [2, 3]), ("y", [3, 4])] (subscripts ["ij".toList, "jk".toList] "ik".toList) = .ok c ∧
    c.shape = [2, 4] := ⟨_, rfl, rfl⟩

theorem firstAxis_lengths (len : Char → Nat) {ops : List (List Char)} {ch : Char} (h : ch ∈ ops.flatten) :
    firstAxis ch ops (ops.map (List.map len)) = .ok (some (len ch)) := by
  induction ops with
  | nil => simp at h
  | cons S ops ih =>
    rw [List.map_cons, firstAxis]
    by_cases hc : ch ∈ S
    · have hlt := List.idxOf_lt_length_of_mem hc
      rw [if_pos hc]
      rw [List.getElem?_map, List.getElem?_eq_getElem hlt, List.getElem_idxOf hlt]
      rfl
    · rw [if_neg hc, List.tail_cons]
      refine ih ?_
      rw [List.flatten_cons, List.mem_append] at h
      exact h.resolve_left hc

theorem zip_map_snd {len : Char → Nat} {p : List Char × List Nat} {ops : List (List Char)}
    (h : p ∈ ops.zip (ops.map (List.map len))) : p.1 ∈ ops ∧ p.2 = p.1.map len := by
  induction ops with
  | nil => simp at h
  | cons o ops ih =>
    rw [List.map_cons, List.zip_cons_cons] at h
    rcases List.mem_cons.1 h with rfl | h
    · exact ⟨by simp, rfl⟩
    · exact ⟨by simp [(ih h).1], (ih h).2⟩

theorem zip_map_len {len : Char → Nat} {a : Char × Nat} {l : List Char} (h : a ∈ l.zip (l.map len)) :
    a.2 = len a.1 := by
  induction l with
  | nil => simp at h
  | cons x l ih =>
    rw [List.map_cons, List.zip_cons_cons] at h
    rcases List.mem_cons.1 h with rfl | h
    · rfl
    · exact ih h

/-- **C44**, what is accepted: operands whose axes have the lengths of their labels, and a result with different
labels of operands. -/
theorem c44_accepted {operands : List (String × List Nat)} {ops : List (List Char)} {out : List Char}
    (hne : ops ≠ []) (ho : ∀ o ∈ ops, Alpha o) (hout : Alpha out) {len : Char → Nat} (hpos : ∀ ch, 0 < len ch)
    (hsh : operands.map Prod.snd = ops.map (List.map len)) (hnd : out.Nodup)
    (hin : ∀ ch ∈ out, ∃ o ∈ ops, ch ∈ o) :
    Lengths operands ops len ∧ ∃ c, stdEinsum operands (subscripts ops out) = .ok c := by
  have hl : ops.length = operands.length := by
    have := congrArg List.length hsh
    simpa using this.symm
  have hat : ∀ k (hk : k < ops.length) (hk' : k < operands.length), operands[k].2 = ops[k].map len := by
    intro k hk hk'
    have h1 : (operands.map Prod.snd)[k]'(by simpa using hk') = (ops.map (List.map len))[k]'(by simpa using hk) := by
      simp only [hsh]
    simpa using h1
  have hlen : Lengths operands ops len := by
    refine ⟨?_, ?_, hpos⟩
    · intro k hk hk' j hj hj'
      right
      simp [hat k hk hk']
    · intro o ho' ch hc
      obtain ⟨k, hk, rfl⟩ := List.mem_iff_getElem.1 ho'
      obtain ⟨j, hj, rfl⟩ := List.mem_iff_getElem.1 hc
      have hk' : k < operands.length := by omega
      exact ⟨k, hk, hk', j, hj, by simp [hat k hk hk', hj], rfl, by simp [hat k hk hk']⟩
  have hin' : ∀ ch ∈ out, ch ∈ ops.flatten := fun ch hc => List.mem_flatten.2 (hin ch hc)
  have hfst : (npAxes (ops.zip (operands.map Prod.snd))).map Prod.fst = ops.flatten := by
    refine map_fst_npAxes (by simpa using hl) fun p hp => ?_
    rw [hsh] at hp
    rw [(zip_map_snd hp).2, List.length_map]
  have hdim : npEinsumShape (ops.zip (operands.map Prod.snd)) out = out.map len :=
    List.map_congr_left fun ch hc => by
      obtain ⟨o, h1, h2⟩ := hin ch hc
      exact npDim_eq hlen h1 h2
  refine ⟨hlen, ?_⟩
  have hshape : computeEinsumShape (ops ++ [out]) (operands.map Prod.snd) =
      .ok (if out = [] then [1] else out.map len) := by
    unfold computeEinsumShape
    simp only [List.getLastD_concat, List.dropLast_concat]
    by_cases hn : out = []
    · rw [if_pos hn, if_pos hn]
    · rw [if_neg hn, if_neg hn, hsh]
      have : ∀ l : List Char, (∀ ch ∈ l, ch ∈ ops.flatten) →
          (l.mapM fun ch => firstAxis ch ops (ops.map (List.map len))) = .ok (l.map fun ch => some (len ch)) := by
        intro l hl
        induction l with
        | nil => rfl
        | cons ch l ih =>
          rw [List.mapM_cons, firstAxis_lengths len (hl ch (by simp)), ih fun c hc => hl c (by simp [hc])]
          rfl
      rw [this out hin']
      have hro : ∀ l : List Char, (l.map fun ch => some (len ch)).reduceOption = l.map len := by
        intro l
        induction l with
        | nil => rfl
        | cons x l ih => exact congrArg (len x :: ·) ih
      simp only [hro]
  have hok : NpEinsumOk (ops.zip (operands.map Prod.snd)) out := by
    refine ⟨?_, ?_, ?_, hnd, ?_⟩
    · rw [Ne, List.zip_eq_nil_iff, not_or]
      refine ⟨hne, fun h => hne ?_⟩
      rw [hsh] at h
      simpa using h
    · intro p hp
      rw [hsh] at hp
      obtain ⟨h1, h2⟩ := zip_map_snd hp
      refine ⟨by rw [h2, List.length_map], fun a ha b hb hab => ?_⟩
      rw [h2] at ha hb
      rw [zip_map_len ha, zip_map_len hb, hab]
    · intro a ha
      right
      obtain ⟨p, hp, hap⟩ := List.mem_flatMap.1 ha
      rw [hsh] at hp
      obtain ⟨h1, h2⟩ := zip_map_snd hp
      rw [h2] at hap
      rw [npDim_eq hlen h1 (List.of_mem_zip hap).1, zip_map_len hap]
    · rw [hfst]; exact hin'
  have hsub : subscripts ops out ≠ [] := by simp [subscripts, arrow]
  unfold stdEinsum
  rw [if_neg hsub]
  simp only
  rw [einsumToList_subscripts hne ho hout, npParse_subscripts hne ho hout, hshape]
  simp only
  rw [if_neg (not_not.2 hl), if_neg (not_not.2 hok), if_neg]
  · exact ⟨_, rfl⟩
  · rw [hdim]
    rintro ⟨h1, h2⟩
    split at h1
    · rename_i hn
      rw [hn] at h1
      exact h1 rfl
    · exact h1 rfl

example : ∃ c, stdEinsum [("x", [2, 3]), ("y", [3, 4])] (subscripts ["ij".toList, "jk".toList] "ki".toList) = .ok c :=
  (c44_accepted (by decide) (by decide) (by decide)
    (len := fun ch => if ch = 'i' then 2 else if ch = 'j' then 3 else 4)
    (by intro ch; split <;> (try split) <;> decide) rfl (by decide) (by decide)).2

/-- **C44**, what is refused: a number of lists of labels different from that of the operands, or an operand with
more or fewer axes than labels; in the result, a repeated label or one that no operand has. -/
theorem c44_refused {operands : List (String × List Nat)} {ops : List (List Char)} {out : List Char}
    (hne : ops ≠ []) (ho : ∀ o ∈ ops, Alpha o) (hout : Alpha out)
    (h : ¬ List.Forall₂ (fun o p => o.length = p.2.length) ops operands ∨ ¬ out.Nodup ∨
      ∃ ch ∈ out, ∀ o ∈ ops, ch ∉ o) :
    ∃ e, stdEinsum operands (subscripts ops out) = .error e := by
  cases hc : stdEinsum operands (subscripts ops out) with
  | error e => exact ⟨e, rfl⟩
  | ok c =>
    exfalso
    have ha := stdEinsum_ok hne ho hout hc
    rcases h with h | h | ⟨ch, h1, h2⟩
    · refine h (List.forall₂_iff_get.2 ⟨ha.len, fun k hk hk' => ?_⟩)
      refine (ha.ok.2.1 (ops[k], operands[k].2) ?_).1
      exact List.mem_iff_getElem.2 ⟨k, by simp; omega, by simp⟩
    · exact h ha.ok.2.2.2.1
    · obtain ⟨a, haa, rfl⟩ := List.mem_map.1 (ha.ok.2.2.2.2 ch h1)
      obtain ⟨p, hp, hap⟩ := List.mem_flatMap.1 haa
      exact h2 p.1 (List.of_mem_zip hp).1 (List.of_mem_zip hap).1

/-- The claim is false if the first axis with a label is broadcast: the shape announced for `'i,i->i'` is that of the
first operand, to which the result cannot be assigned (`ValueError`). In the other order it is accepted. -/
theorem c44_broadcast_first {n : Nat} (hn : 1 < n) :
    stdEinsum [("x", [1]), ("y", [n])] (subscripts [['i'], ['i']] ['i']) = .error .valueError ∧
    ∃ c, stdEinsum [("y", [n]), ("x", [1])] (subscripts [['i'], ['i']] ['i']) = .ok c ∧ c.shape = [n] := by
  have hsub : subscripts [['i'], ['i']] ['i'] ≠ [] := by decide
  have h1 : einsumToList [] (subscripts [['i'], ['i']] ['i']) = [['i'], ['i'], ['i']] := by decide
  have h2 : npParse (subscripts [['i'], ['i']] ['i']) = .ok ([['i'], ['i']], ['i']) := by rfl
  constructor
  · unfold stdEinsum
    rw [if_neg (by decide)]
    simp only [h1, h2]
    have h3 : computeEinsumShape [['i'], ['i'], ['i']] (List.map Prod.snd [("x", [1]), ("y", [n])]) = .ok [1] := by
      rfl
    rw [h3]
    simp only
    have hn1 : n ≠ 1 := by omega
    have hd : npDim [('i', 1), ('i', n)] 'i' = n := by simp [npDim, hn1]
    rw [if_neg (by simp), ite_eq_left_iff.2]
    intro _
    rw [if_pos]
    simp [npEinsumShape, npAxes, hd, prodShape, hn1]
  · unfold stdEinsum
    rw [if_neg hsub]
    simp only
    rw [h1, h2]
    have hs' : computeEinsumShape [['i'], ['i'], ['i']] ([("y", [n]), ("x", [1])].map Prod.snd) = .ok [n] := by rfl
    rw [hs']
    simp only
    have hd : npDim [('i', n), ('i', 1)] 'i' = n := by
      have : (n ≠ 1) := by omega
      simp [npDim, this]
    rw [if_neg (by simp), if_neg, if_neg]
    · exact ⟨_, rfl, rfl⟩
    · rintro ⟨h, -⟩
      apply h
      simp [npEinsumShape, npAxes, hd]
    · rw [not_not]
      refine ⟨by simp, ?_, ?_, by simp, by simp [npAxes]⟩
      · intro p hp
        simp only [List.map_cons, List.map_nil, List.zip_cons_cons, List.zip_nil_right, List.mem_cons,
          List.not_mem_nil, or_false] at hp
        rcases hp with rfl | rfl <;> simp
      · intro a ha
        simp [npAxes] at ha
        rcases ha with rfl | rfl
        · right; simp [npAxes, hd]
        · left; rfl

/-- The claim is false for strings without an arrow: for `'i,i'` with vectors of any length but one, NumPy sums over
`i` and the result has one entry; it is announced with the shape of the vectors, and every entry is the sum. -/
theorem c44_no_arrow (x y : String) {n : Nat} (hn : n ≠ 1) :
    ∃ c, stdEinsum [(x, [n]), (y, [n])] "i,i".toList = .ok c ∧ c.shape = [n] ∧
      ∀ inp, ∀ r, c.compute inp r = ∑ q ∈ Finset.range n, inp x q * inp y q := by
  have hax : npAxes [(['i'], [n]), (['i'], [n])] = [('i', n), ('i', n)] := rfl
  have hdim : npDim [('i', n), ('i', n)] 'i' = n := by simp [npDim, hn]
  have hsum : npSummed [(['i'], [n]), (['i'], [n])] [] = ['i'] := by rw [npSummed, hax]; rfl
  have hok : NpEinsumOk [(['i'], [n]), (['i'], [n])] [] := by
    refine ⟨by simp, by simp, ?_, by simp, by simp⟩
    rw [hax]
    intro a ha
    have : a = ('i', n) := by simpa using ha
    subst this
    exact .inr hdim.symm
  have hc : stdEinsum [(x, [n]), (y, [n])] "i,i".toList = .ok ⟨[x, y], [[n], [n]], [['i'], ['i']], [['i'], ['i']],
      [], alphabet.filter (· ∉ ['i', ',', 'i']), [n]⟩ := by
    show (if ¬ NpEinsumOk [(['i'], [n]), (['i'], [n])] [] then _ else
      if _ ∧ (1 : Nat) ≠ 1 then _ else Except.ok _) = _
    rw [if_neg (not_not.2 hok)]
    exact if_neg fun h => h.2 rfl
  refine ⟨_, hc, rfl, fun inp r => ?_⟩
  have h1 : npTerms [(['i'], [n]), (['i'], [n])] [] = (List.range n).map fun q => [q] := by
    rw [npTerms, hsum, hax]
    simp only [List.map_cons, List.map_nil, hdim]
    rw [List.map_eq_flatMap]
    simp [cartesian]
  have h2 : ∀ k < 2, ∀ q, npPosAt [(['i'], [n]), (['i'], [n])] [] k 0 [q] = q := by
    intro k hk q
    have : ([(['i'], [n]), (['i'], [n])] : List (List Char × List Nat)).getD k ([], []) = (['i'], [n]) := by
      interval_cases k <;> rfl
    rw [npPosAt, this, npEnv, hsum]
    simp [npPos, hn, ravel, npLookup, npEinsumShape, unravel, prodShape]
  have h3 : Einsum.compute ⟨[x, y], [[n], [n]], [['i'], ['i']], [['i'], ['i']], [],
      alphabet.filter (· ∉ ['i', ',', 'i']), [n]⟩ inp r = npEinsum [(['i'], [n]), (['i'], [n])] []
        (fun k => inp ([x, y].getD k "")) 0 := by
    unfold Einsum.compute
    refine if_neg (show ¬ prodShape [] = prodShape [n] from ?_)
    simp [prodShape]
    exact fun e => hn e.symm
  rw [h3, npEinsum_eq, h1, List.map_map, sum_map_range]
  refine Finset.sum_congr rfl fun q _ => ?_
  simp [Finset.prod_range_succ, h2 0 (by decide) q, h2 1 (by decide) q]

example : ∃ c, stdEinsum [("x", [3]), ("y", [3])] "i,i".toList = .ok c ∧ c.shape = [3] ∧ c.npOut = [] :=
  ⟨_, rfl, rfl, rfl⟩

end OM
