import Verif.Props.EinsumDerivs

/-! # Sparse derivatives of einsum (C45) -/

namespace OM
open Spec

theorem filterCoo_apply {M N : Nat} (p : Nat → Prop) [DecidablePred p] {a : Nat → ℝ} (y : Nat → ℝ) {i : Nat}
    (hi : i < M) (h0 : ∀ k < M * N, ¬ p k → a k = 0) :
    cooApply (((List.range (M * N)).filter fun k => p k).map (· / N))
      (((List.range (M * N)).filter fun k => p k).map (· % N)) (((List.range (M * N)).filter fun k => p k).map a) y i =
      ((List.range N).map fun j => a (i * N + j) * y j).sum := by
  rw [cooApply_map, List.filter_comm, sum_filter_ite]
  have e : (((List.range (M * N)).filter fun t => t / N = i).map fun k => if p k then a k * y (k % N) else 0) =
      ((List.range (M * N)).filter fun t => t / N = i).map fun k => a k * y (k % N) := by
    refine List.map_congr_left fun k hk => ?_
    have hk := List.mem_range.1 (List.mem_filter.1 hk).1
    by_cases hp : p k
    · rw [if_pos hp]
    · rw [if_neg hp, h0 k hk hp, zero_mul]
  rw [e, range_pairs, List.filter_map, List.map_map]
  have hdiv : ∀ t ∈ pairs M N, (t.1 * N + t.2) / N = t.1 ∧ (t.1 * N + t.2) % N = t.2 := by
    intro t ht
    have h2 := (mem_pairs.1 ht).2
    constructor
    · rw [Nat.mul_comm, Nat.mul_add_div (by omega), Nat.div_eq_of_lt h2, Nat.add_zero]
    · rw [Nat.mul_comm, Nat.mul_add_mod, Nat.mod_eq_of_lt h2]
  have e2 : (pairs M N).filter ((fun t => decide (t / N = i)) ∘ fun t => t.1 * N + t.2) =
      (pairs M N).filter fun t => t.1 = i := by
    refine List.filter_congr fun t ht => ?_
    simp only [Function.comp]
    rw [(hdiv t ht).1]
  rw [e2, ← filter_pairs hi fun i j => a (i * N + j) * y j]
  refine congrArg List.sum (List.map_congr_left fun t ht => ?_)
  simp only [Function.comp]
  rw [(hdiv t (List.mem_filter.1 ht).1).2]

theorem getD_idxOf_char {l : List Char} {ch : Char} (h : ch ∈ l) : l.getD (l.idxOf ch) ' ' = ch := by
  have h1 := List.idxOf_lt_length_of_mem h
  rw [List.getD_eq_getElem?_getD, List.getElem?_eq_getElem h1]; simp

section
variable {c : Einsum} (h : c.Good)
include h

/-- Without broadcasting, every position used is in the pattern. -/
theorem Einsum.Good.mem_patternAt (hb : ∀ a ∈ npAxes c.t, a.2 = npDim (npAxes c.t) a.1)
    (hsh : c.shape = npEinsumShape c.t c.npOut) {f i r : Nat} (hi : i < c.names.length)
    (hs : c.shapeAt i = c.shapeAt f) (hr : r < c.size) {q : List Nat} (hq : q ∈ npTerms c.t c.npOut) :
    r * c.sizeAt f + npPosAt c.t c.npOut i r q ∈ c.patternAt f i := by
  have hS : c.lst.getD i [] = c.npOps.getD i [] := by
    rw [h.lst, List.getD_append _ _ _ _ (by rw [h.lenOps]; exact hi)]
  have hO : c.lst.getLastD [] = c.npOut := by rw [h.lst, List.getLastD_concat]
  have hr' : r < prodShape (npEinsumShape c.t c.npOut) := by rw [h.size]; exact hr
  have hlt : ∀ a ∈ npAxes c.t, npEnv c.t c.npOut r q a.1 < npDim (npAxes c.t) a.1 :=
    fun a ha => npEnv_lt hr' hq ha
  have hlen : (unravel (npEinsumShape c.t c.npOut) r).length = c.npOut.length := by
    rw [unravel_length, npEinsumShape, List.length_map]
  have hmemT : (c.npOps.getD i [], c.shapeAt i) ∈ c.t := by
    have h2 : i < c.t.length := by rw [h.lenT]; exact hi
    rw [← h.getT hi, List.getD_eq_getElem?_getD, List.getElem?_eq_getElem h2]
    exact List.getElem_mem h2
  have hlenS : (c.npOps.getD i []).length = (c.shapeAt i).length := (h.ok.2.1 _ hmemT).1
  unfold Einsum.patternAt
  simp only
  rw [hS, hO, ← hs]
  generalize hSd : c.npOps.getD i [] = S at *
  refine List.mem_flatMap.2 ⟨(c.npOut.filter (· ∉ S)).map (npEnv c.t c.npOut r q), ?_, ?_⟩
  · rw [mem_cartesian, List.map_map, List.forall₂_map_left_iff, List.forall₂_map_right_iff, List.forall₂_same]
    intro ch hc
    have hc := (List.mem_filter.1 hc).1
    obtain ⟨a, ha, rfl⟩ := List.mem_map.1 (h.ok.2.2.2.2 ch hc)
    simp only [Function.comp]
    rw [List.mem_range, hsh, npEinsumShape, getD_map ' ' 0 (List.idxOf_lt_length_of_mem hc), getD_idxOf_char hc]
    exact hlt a ha
  · have hpos : npPosAt c.t c.npOut i r q = ravel (c.shapeAt i)
        (List.zipWith (fun ch n => if n = 1 then 0 else npEnv c.t c.npOut r q ch) S (c.shapeAt i)) := by
      rw [npPosAt, h.getT hi, hSd]; rfl
    have hin := npPos_inBounds h.ok hmemT hlt
    simp only at hin
    refine List.mem_map.2 ⟨npPosAt c.t c.npOut i r q, List.mem_range.2 ?_, ?_⟩
    · rw [hpos]; exact ravel_lt hin
    · have hsz : c.sizeAt f = prodShape (c.shapeAt i) := by rw [Einsum.sizeAt, hs]
      rw [hsz]
      congr 2
      rw [hpos, unravel_ravel hin]
      have ho : (c.npOut.map fun ch => if ch ∈ S then
          (List.zipWith (fun ch n => if n = 1 then 0 else npEnv c.t c.npOut r q ch) S (c.shapeAt i)).getD
            (S.idxOf ch) 0
          else ((c.npOut.filter (· ∉ S)).map (npEnv c.t c.npOut r q)).getD
            ((c.npOut.filter (· ∉ S)).idxOf ch) 0) = unravel c.shape r := by
        have h1 : unravel c.shape r = c.npOut.map (npEnv c.t c.npOut r q) := by
          rw [hsh]
          apply List.ext_getElem
          · rw [hlen, List.length_map]
          · intro k hk1 hk2
            rw [List.length_map] at hk2
            simp only [List.getElem_map, npEnv, npLookup]
            rw [List.idxOf_append_of_mem (List.getElem_mem hk2), h.ok.2.2.2.1.idxOf_getElem k hk2,
              List.getD_append _ _ _ _ hk1, List.getD_eq_getElem?_getD, List.getElem?_eq_getElem hk1]
            rfl
        rw [h1]
        refine List.map_congr_left fun ch hc => ?_
        by_cases hcS : ch ∈ S
        · rw [if_pos hcS]
          have h2 := List.idxOf_lt_length_of_mem hcS
          have h3 : S.idxOf ch < (c.shapeAt i).length := by omega
          have h4 : S[S.idxOf ch] = ch := List.getElem_idxOf h2
          have h5 : (ch, (c.shapeAt i)[S.idxOf ch]) ∈ npAxes c.t := by
            refine mem_npAxes hmemT (List.mem_iff_getElem.2 ⟨S.idxOf ch, by simp; omega, ?_⟩)
            simp [h4]
          rw [List.getD_eq_getElem?_getD, List.getElem?_zipWith, List.getElem?_eq_getElem h2,
            List.getElem?_eq_getElem h3]
          simp only [Option.getD_some, h4]
          have h6 := hlt _ h5
          have h7 := hb _ h5
          simp only at h6 h7
          split
          · omega
          · rfl
        · rw [if_neg hcS]
          have hm : ch ∈ c.npOut.filter (· ∉ S) := List.mem_filter.2 ⟨hc, by simpa using hcS⟩
          rw [getD_map ' ' 0 (List.idxOf_lt_length_of_mem hm), getD_idxOf_char hm]
      have := congrArg (ravel c.shape) ho
      rw [ravel_unravel (by exact hr)] at this
      exact this

/-- Outside the pattern the array is zero. -/
theorem Einsum.Good.total_zero (hb : ∀ a ∈ npAxes c.t, a.2 = npDim (npAxes c.t) a.1)
    (hsh : c.shape = npEinsumShape c.t c.npOut) (inp : String → Nat → ℝ) (hu : ∀ i, i < c.names.length →
    (c.shapeAt i).length ≤ c.unused.length) {f : Nat} (hf : f ∈ c.firsts) {k : Nat} (hk : k < c.size * c.sizeAt f)
    (hno : k ∉ 0 :: (c.locations f).flatMap (c.patternAt f)) : c.total inp f k = 0 := by
  have hN : 0 < c.sizeAt f := by
    rcases Nat.eq_zero_or_pos (c.sizeAt f) with h0 | h0
    · rw [h0] at hk; omega
    · exact h0
  have hr : k / c.sizeAt f < c.size := (Nat.div_lt_iff_lt_mul hN).2 hk
  have hu' := Nat.mod_lt k hN
  have hk' : k = k / c.sizeAt f * c.sizeAt f + k % c.sizeAt f := by
    rw [Nat.mul_comm]; exact (Nat.div_add_mod k _).symm
  rw [hk', h.total_apply inp hu hf hr hu']
  refine List.sum_eq_zero fun x hx => ?_
  obtain ⟨i, hi, rfl⟩ := List.mem_map.1 hx
  refine List.sum_eq_zero fun x hx => ?_
  obtain ⟨q, hq, rfl⟩ := List.mem_map.1 hx
  rw [if_neg, mul_zero]
  intro e
  obtain ⟨h2, h3⟩ := List.mem_filter.1 hi
  have h2 := List.mem_range.1 h2
  have hs := h.sameShape i f h2 (c.mem_firsts.1 hf).1 (of_decide_eq_true h3)
  refine hno (List.mem_cons_of_mem _ (List.mem_flatMap.2 ⟨i, hi, ?_⟩))
  have := h.mem_patternAt hb hsh h2 hs hr hq
  rw [e] at this
  rwa [← hk'] at this

end

/-- Wherever the input is used, one of its labels is in the result. -/
def Spec.Survives (operands : List (String × List Nat)) (ops : List (List Char)) (out : List Char) (x : String) :
    Prop :=
  ∀ k (hk : k < operands.length) (hk' : k < ops.length), operands[k].1 = x → ∃ ch ∈ ops[k], ch ∈ out

theorem Accepted.isSparse_iff {operands : List (String × List Nat)} {ops : List (List Char)} {out : List Char}
    {c : Einsum} (h : Accepted operands ops out c) (f : Nat) :
    c.isSparse f = true ↔ Survives operands ops out (c.name f) := by
  have hlen : c.names.length = operands.length := by rw [h.names, List.length_map]
  have hsurv : ∀ k (hk : k < ops.length), c.surviving k = true ↔ ∃ ch ∈ ops[k], ch ∈ out := by
    intro k hk
    unfold Einsum.surviving
    rw [h.lst, List.getLastD_concat, List.getD_append _ _ _ _ hk, List.getD_eq_getElem?_getD,
      List.getElem?_eq_getElem hk]
    simp
  have hname : ∀ k (hk : k < operands.length), c.name k = operands[k].1 := by
    intro k hk
    simp [Einsum.name, h.names, List.getD_eq_getElem?_getD, hk]
  unfold Einsum.isSparse Survives
  rw [List.all_eq_true]
  constructor
  · intro ha k hk hk' he
    refine (hsurv k hk').1 (ha k (List.mem_filter.2 ⟨List.mem_range.2 (by omega), ?_⟩))
    rw [hname k hk, he]; simp
  · intro ha k hk
    obtain ⟨h1, h2⟩ := List.mem_filter.1 hk
    have h1 := List.mem_range.1 h1
    have h2 : c.name k = c.name f := of_decide_eq_true h2
    have h3 : k < operands.length := by omega
    refine (hsurv k (by rw [h.len]; exact h3)).2 (ha k h3 (by rw [h.len]; exact h3) ?_)
    rw [← hname k h3, h2]

theorem firsts_eq_range {c : Einsum} {d rest : List String} (hn : c.names = d ++ rest) (hd : d.Nodup)
    (hr : ∀ x ∈ rest, x ∈ d) : c.firsts = List.range d.length := by
  have h1 := firsts_of_newFirst (c := c) ⟨d, rest, hn, hd, hr⟩
  have hmem : ∀ k, k ∈ c.firsts ↔ k < d.length := by
    intro k
    rw [c.mem_firsts, hn]
    constructor
    · rintro ⟨hk, hno⟩
      by_contra hge
      refine hno ?_
      have : c.name k ∈ d := by
        rw [c.name_eq (by rw [hn]; exact hk)]
        simp only [hn]
        rw [List.getElem_append_right (by omega)]
        exact hr _ (List.getElem_mem _)
      rw [List.take_append]
      refine List.mem_append_left _ ?_
      rwa [List.take_of_length_le (by omega)]
    · intro hk
      refine ⟨by simp; omega, ?_⟩
      have hname : c.name k = d[k] := by
        rw [c.name_eq (by rw [hn, List.length_append]; omega)]
        simp [hn, hk]
      rw [hname, List.take_append_of_le_length (by omega)]
      intro hm
      obtain ⟨j, hj, he⟩ := List.mem_iff_getElem.1 hm
      simp only [List.length_take] at hj
      simp only [List.getElem_take] at he
      have := (List.Nodup.getElem_inj_iff hd).1 he
      omega
  have hperm : c.firsts.Perm (List.range d.length) :=
    (List.perm_ext_iff_of_nodup c.firsts_nodup List.nodup_range).2 fun k => by
      rw [hmem k, List.mem_range]
  have hlen : c.firsts.length = d.length := by rw [hperm.length_eq, List.length_range]
  apply List.ext_getElem
  · rw [hlen, List.length_range]
  · intro k hk hk'
    have h2 := h1 k ((hmem k).2 (by omega))
    rw [List.getElem?_eq_getElem hk] at h2
    rw [Option.some.inj h2, List.getElem_range]

/-- No axis is broadcast: `len` gives the length of every axis. -/
def Spec.NoBroadcast (operands : List (String × List Nat)) (ops : List (List Char)) (len : Char → Nat) : Prop :=
  ∀ k (hk : k < ops.length) (hk' : k < operands.length) j (hj : j < ops[k].length)
    (hj' : j < operands[k].2.length), operands[k].2[j] = len ops[k][j]

/-- **C45**, sparse partials: they are exact if no axis is broadcast, no new operand follows a repeated one, and
the inputs with sparse partials come before the others. Missing: the other cases, for which `compute_partials`
raises (`c45_new_after_repeated`, `c45_letters`, `c45_sparse_order`) or the pattern lacks entries
(`c45_sparse_broadcast`). -/
theorem c45_sparse_partial {operands : List (String × List Nat)} {ops : List (List Char)} {out : List Char}
    (hne : ops ≠ []) (ho : ∀ o ∈ ops, Alpha o) (hout : Alpha out)
    (hs : ∀ p ∈ operands, ∀ q ∈ operands, p.1 = q.1 → p.2 = q.2)
    (hlet : ∀ p ∈ operands, p.2.length ≤ (alphabet.filter (· ∉ subscripts ops out)).length)
    {len : Char → Nat} (hlen : Lengths operands ops len) (hb : NoBroadcast operands ops len)
    {sparse dense rest : List String} (hn : operands.map Prod.fst = sparse ++ dense ++ rest)
    (hd : (sparse ++ dense).Nodup) (hrest : ∀ x ∈ rest, x ∈ sparse ++ dense)
    (hsp : ∀ x ∈ sparse, Survives operands ops out x) (hde : ∀ x ∈ dense, ¬ Survives operands ops out x)
    {c : Einsum} (h : stdEinsum operands (subscripts ops out) = .ok c) (inp : String → Nat → ℝ) :
    ∃ P, c.sparsePartials inp = .ok P ∧ ExactPartials c.ins (prodShape c.shape) c.compute P inp := by
  have ha := stdEinsum_ok hne ho hout h
  have hg := ha.good hs
  have ht := ha.t_eq
  have hcn : c.names = sparse ++ dense ++ rest := by rw [ha.names, hn]
  have hnl : c.names.length = operands.length := by rw [ha.names, List.length_map]
  have hshape : ∀ i (hi : i < operands.length), c.shapeAt i = operands[i].2 := by
    intro i hi
    simp [Einsum.shapeAt, ha.shapes, List.getD_eq_getElem?_getD, hi]
  have hu : ∀ i, i < c.names.length → (c.shapeAt i).length ≤ c.unused.length := by
    intro i hi
    rw [hnl] at hi
    rw [hshape i hi, ha.unused]
    exact hlet _ (List.getElem_mem hi)
  have hfr := firsts_eq_range hcn hd hrest
  have hff := firsts_of_newFirst (c := c) ⟨_, _, hcn, hd, hrest⟩
  have hnb : ∀ a ∈ npAxes c.t, a.2 = npDim (npAxes c.t) a.1 := by
    intro a hm
    rw [ht] at hm ⊢
    obtain ⟨k, hk, hk', j, hj, hj', rfl⟩ := mem_npAxes_iff.1 hm
    have := hb k hk (by simpa using hk') j hj (by simpa using hj')
    rw [npDim_eq hlen (List.getElem_mem hk) (List.getElem_mem hj), ← this]
    simp
  -- the position of an input among the sparse ones
  have hspi : ∀ k < (sparse ++ dense).length, (c.isSparse k = true ↔ k < sparse.length) := by
    intro k hk
    rw [ha.isSparse_iff]
    have hname : c.name k = (sparse ++ dense)[k] := by
      rw [c.name_eq (by rw [hcn, List.length_append]; omega)]
      simp only [hcn]
      rw [List.getElem_append_left hk]
    rw [hname]
    by_cases hlt : k < sparse.length
    · rw [List.getElem_append_left hlt]
      exact ⟨fun _ => hlt, fun _ => hsp _ (List.getElem_mem hlt)⟩
    · rw [List.getElem_append_right (by omega)]
      exact ⟨fun hx => absurd hx (hde _ (List.getElem_mem _)), fun hx => absurd hx hlt⟩
  have hsplist : c.firsts.filter c.isSparse = List.range sparse.length := by
    rw [hfr, List.length_append, List.range_add, List.filter_append]
    have h1 : (List.range sparse.length).filter c.isSparse = List.range sparse.length :=
      List.filter_eq_self.2 fun k hk => (hspi k (by
        have := List.mem_range.1 hk; rw [List.length_append]; omega)).2 (List.mem_range.1 hk)
    have h2 : ((List.range dense.length).map (sparse.length + ·)).filter c.isSparse = [] := by
      refine List.filter_eq_nil_iff.2 fun k hk => ?_
      obtain ⟨j, hj, rfl⟩ := List.mem_map.1 hk
      have hj := List.mem_range.1 hj
      intro hx
      have := (hspi (sparse.length + j) (by rw [List.length_append]; omega)).1 hx
      omega
    rw [h1, h2, List.append_nil]
  have hidx : ∀ f ∈ c.firsts, c.firsts.idxOf f = f := by
    intro f hf
    obtain ⟨h2, h3⟩ := List.getElem?_eq_some_iff.1 (hff f hf)
    have := c.firsts_nodup.idxOf_getElem f h2
    rwa [h3] at this
  have hsize : ∀ f ∈ c.firsts, c.size * c.sizeAt f ≠ 0 := by
    intro f hf
    have hf' := (c.mem_firsts.1 hf).1
    rw [hnl] at hf'
    refine Nat.mul_ne_zero ?_ ?_
    · have := ha.sizes
      show prodShape c.shape ≠ 0
      rw [← this, ha.shape_eq hlen]
      refine (List.prod_pos fun d hd => ?_).ne'
      obtain ⟨ch, _, rfl⟩ := List.mem_map.1 hd
      exact hlen.pos ch
    · unfold Einsum.sizeAt
      rw [hshape f hf']
      refine (List.prod_pos fun d hd => ?_).ne'
      obtain ⟨j, hj, rfl⟩ := List.mem_iff_getElem.1 hd
      have hfo : f < ops.length := by rw [ha.len]; exact hf'
      have hl : ops[f].length = operands[f].2.length :=
        (ha.ok.2.1 (ops[f], operands[f].2) (List.mem_iff_getElem.2 ⟨f, by simp; omega, by simp⟩)).1
      rw [hb f hfo hf' j (by omega) hj]
      exact hlen.pos _
  refine ⟨fun name =>
        let f := c.names.idxOf name
        let a := (c.firsts.map (c.total inp)).getD (c.firsts.idxOf f) fun _ => 0
        if c.isSparse f then
          ⟨(c.pattern f).map (· / c.sizeAt f), (c.pattern f).map (· % c.sizeAt f), (c.pattern f).map a⟩
        else denseCoo c.size (c.sizeAt f) a, ?_, ?_⟩
  · unfold Einsum.sparsePartials
    simp only
    rw [if_neg, hg.partials_ok inp hu hff]
    · simp only
      rw [if_neg]
      rintro ⟨f, hf, hx⟩
      rw [hidx f (List.mem_filter.1 hf).1] at hx
      refine hx ?_
      rw [hsplist] at hf ⊢
      have := List.mem_range.1 hf
      simp [this]
    · rintro ⟨f, hf, hx⟩
      exact hsize f (List.mem_filter.1 hf).1 hx
  · show ExactPartials c.ins c.size c.compute _ inp
    refine hg.exact ?_ ?_ ?_
    · intro f hf
      simp only
      rw [c.idxOf_first hf, Einsum.getD_total inp hf]
      split
      · intro x hx
        obtain ⟨k, _, rfl⟩ := List.mem_map.1 hx
        exact Nat.mod_lt _ (Nat.pos_of_ne_zero fun h0 => hsize f hf (by rw [h0, Nat.mul_zero]))
      · exact denseCoo_cols _
    · intro f hf
      simp only
      rw [c.idxOf_first hf, Einsum.getD_total inp hf]
      split
      · intro x hx
        obtain ⟨k, hk, rfl⟩ := List.mem_map.1 hx
        have hk := List.mem_range.1 (List.mem_filter.1 hk).1
        refine (Nat.div_lt_iff_lt_mul (Nat.pos_of_ne_zero fun h0 => hsize f hf (by rw [h0, Nat.mul_zero]))).2 hk
      · exact denseCoo_rows _
    · intro f hf y i hi
      simp only
      rw [c.idxOf_first hf, Einsum.getD_total inp hf]
      rw [← hg.total_action inp hu hf hi y]
      split
      · rename_i hsparse
        refine filterCoo_apply (fun k => k ∈ 0 :: (c.locations f).flatMap (c.patternAt f)) y hi ?_
        intro k hk hno
        refine hg.total_zero hnb ?_ inp hu hf hk hno
        -- a sparse input shares a label with the output
        have hne' : out ≠ [] := by
          have hf' := (c.mem_firsts.1 hf).1
          rw [hnl] at hf'
          obtain ⟨ch, _, hc⟩ := (ha.isSparse_iff f).1 hsparse f hf' (by rw [ha.len]; exact hf')
            (by simp [Einsum.name, ha.names, List.getD_eq_getElem?_getD, hf'])
          exact List.ne_nil_of_mem hc
        rw [ht, ha.npOut]
        refine eq_of_prod_eq (ha.lengths hne') ?_ ha.sizes
        rw [ha.shape_eq hlen]
        intro d hd
        obtain ⟨ch, _, rfl⟩ := List.mem_map.1 hd
        exact hlen.pos ch
      · exact denseCoo_apply _ _ hi

/-- A product of a matrix and a vector, times the square of a number: `y` is sparse, `x` and `z` are not. -/
example : let operands := [("y", [2, 3]), ("x", [3])]
    let ops := ["ij".toList, "j".toList]
    let out := "i".toList
    Lengths operands ops (fun ch => if ch = 'i' then 2 else 3) ∧
      NoBroadcast operands ops (fun ch => if ch = 'i' then 2 else 3) ∧
      Survives operands ops out "y" ∧ ¬ Survives operands ops out "x" ∧
      ∃ c, stdEinsum operands (subscripts ops out) = .ok c := by
  refine ⟨⟨by decide, by decide, fun ch => by split <;> decide⟩, by unfold NoBroadcast; decide,
    by unfold Survives; decide, by unfold Survives; decide, ⟨_, rfl⟩⟩

/-- The claim is false if an input without surviving labels comes before one with: `compute_partials` raises. -/
theorem c45_sparse_order {operands : List (String × List Nat)} {ops : List (List Char)} {out : List Char}
    (hne : ops ≠ []) (ho : ∀ o ∈ ops, Alpha o) (hout : Alpha out)
    {pre mid post : List String} {x y : String} (hn : operands.map Prod.fst = pre ++ x :: mid ++ y :: post)
    (hy : y ∉ pre ++ x :: mid)
    (hx : ¬ Survives operands ops out x) (hy' : Survives operands ops out y)
    {c : Einsum} (h : stdEinsum operands (subscripts ops out) = .ok c) (inp : String → Nat → ℝ) :
    ∃ e, c.sparsePartials inp = .error e := by
  have ha := stdEinsum_ok hne ho hout h
  have hcn : c.names = pre ++ x :: mid ++ y :: post := by rw [ha.names, hn]
  have hny : c.name (pre ++ x :: mid).length = y := by
    simp only [Einsum.name, hcn, List.getD_eq_getElem?_getD]
    rw [List.getElem?_append_right (le_refl _)]
    simp
  have hnx : c.name pre.length = x := by
    simp [Einsum.name, hcn, List.getD_eq_getElem?_getD]
  generalize hj : (pre ++ x :: mid).length = j at *
  have hjm : j ∈ c.firsts := by
    refine c.mem_firsts.2 ⟨by rw [hcn, List.length_append, hj]; simp, ?_⟩
    rw [hny, hcn, List.take_append_of_le_length (by omega), List.take_of_length_le (by omega)]
    exact hy
  have hjs : c.isSparse j = true := (ha.isSparse_iff j).2 (by rw [hny]; exact hy')
  obtain ⟨hi1, hi2⟩ := c.first_of (k := pre.length) (by rw [hcn]; simp)
  generalize hi : c.names.idxOf (c.name pre.length) = i at *
  have hij : i < j := by
    have h1 : i ≤ pre.length := by
      rw [← hi]
      have h2 : c.names[pre.length]'(by rw [hcn]; simp) = c.name pre.length := (c.name_eq _).symm
      by_contra hgt
      have h3 := List.not_of_lt_findIdx (p := (· == c.name pre.length)) (xs := c.names) (i := pre.length)
        (by unfold List.idxOf at hgt; omega)
      simp [h2] at h3
    rw [← hj]; simp; omega
  have his : c.isSparse i = false := by
    rw [Bool.eq_false_iff]
    intro hs
    refine hx ?_
    rw [← hnx, ← hi2]
    exact (ha.isSparse_iff i).1 hs
  unfold Einsum.sparsePartials
  simp only
  split
  · exact ⟨_, rfl⟩
  · split
    · exact ⟨_, rfl⟩
    · rw [if_pos]
      · exact ⟨_, rfl⟩
      · refine ⟨j, List.mem_filter.2 ⟨hjm, hjs⟩, fun he => ?_⟩
        obtain ⟨A, B, hAB⟩ := List.append_of_mem hjm
        have hnd := c.firsts_nodup
        rw [hAB] at hnd
        have hjA : j ∉ A := fun hm => (List.nodup_append.1 hnd).2.2 j hm j (by simp) rfl
        have hiA : i ∈ A := by
          have hsorted : c.firsts.Pairwise (· < ·) := List.Pairwise.filter _ List.pairwise_lt_range
          rw [hAB] at hi1 hsorted
          rcases List.mem_append.1 hi1 with hm | hm
          · exact hm
          · rcases List.mem_cons.1 hm with hm | hm
            · omega
            · have := (List.pairwise_cons.1 (List.pairwise_append.1 hsorted).2.1).1 i hm
              omega
        rw [hAB, List.idxOf_append_of_notMem hjA, List.idxOf_cons_self, Nat.add_zero, List.filter_append,
          List.filter_cons_of_pos hjs] at he
        have hlt : (A.filter c.isSparse).length < A.length := by
          refine List.length_filter_lt_length_iff_exists.2 ⟨i, hiA, by simp [his]⟩
        rw [List.getElem?_append_right hlt.le] at he
        obtain ⟨n, hnn⟩ : ∃ n, A.length - (A.filter c.isSparse).length = n + 1 := ⟨A.length - (A.filter c.isSparse).length - 1, by omega⟩
        rw [hnn, List.getElem?_cons_succ] at he
        have hjB : j ∈ B := (List.mem_filter.1 (List.mem_of_getElem? he)).1
        exact (List.nodup_cons.1 (List.nodup_append.1 hnd).2.1).1 hjB

example : let operands := [("x", [3]), ("y", [2, 3])]
    let ops := ["j".toList, "ij".toList]
    let out := "i".toList
    ¬ Survives operands ops out "x" ∧ Survives operands ops out "y" ∧
      ∃ c, stdEinsum operands (subscripts ops out) = .ok c := by
  refine ⟨by unfold Survives; decide, by unfold Survives; decide, ⟨_, rfl⟩⟩

/-- The claim is false with sparse partials if an axis is broadcast: for `'i,i->i'` with operands `y` of any length
`n` and `x` of shape `(1,)`, all entries but the first are missing in the partials with respect to `x`, which are
wrong as soon as another entry of `y` is not zero. -/
theorem c45_sparse_broadcast {n r : Nat} (h0 : 0 < r) (hr : r < n) (inp : String → Nat → ℝ) (h1 : inp "y" r ≠ 0) :
    ∃ c P, stdEinsum [("y", [n]), ("x", [1])] (subscripts [['i'], ['i']] ['i']) = .ok c ∧
      c.sparsePartials inp = .ok P ∧ ¬ ExactPartials c.ins (prodShape c.shape) c.compute P inp := by
  have hn1 : n ≠ 1 := by omega
  have hax : npAxes [(['i'], [n]), (['i'], [1])] = [('i', n), ('i', 1)] := rfl
  have hdim : npDim [('i', n), ('i', 1)] 'i' = n := by simp [npDim, hn1]
  have hok : NpEinsumOk [(['i'], [n]), (['i'], [1])] ['i'] := by
    refine ⟨by simp, by simp, ?_, by simp, by simp [hax]⟩
    rw [hax]
    intro a ha
    rcases List.mem_cons.1 ha with rfl | ha
    · exact .inr hdim.symm
    · have : a = ('i', 1) := by simpa using ha
      subst this
      exact .inl rfl
  have hc : stdEinsum [("y", [n]), ("x", [1])] (subscripts [['i'], ['i']] ['i']) =
      .ok ⟨["y", "x"], [[n], [1]], [['i'], ['i'], ['i']], [['i'], ['i']], ['i'],
        alphabet.filter (· ∉ ['i', ',', 'i', '-', '>', 'i']), [n]⟩ := by
    show (if ¬ NpEinsumOk [(['i'], [n]), (['i'], [1])] ['i'] then _ else
      if prodShape [npDim [('i', n), ('i', 1)] 'i'] ≠ prodShape [n] ∧ _ then _ else Except.ok _) = _
    rw [if_neg (not_not.2 hok)]
    exact if_neg fun h => h.1 (by rw [hdim])
  have hA := stdEinsum_ok (by simp) (by decide) (by decide) hc
  have hg := hA.good (by simp)
  generalize he : Einsum.mk ["y", "x"] [[n], [1]] [['i'], ['i'], ['i']] [['i'], ['i']] ['i']
        (alphabet.filter (· ∉ ['i', ',', 'i', '-', '>', 'i'])) [n] = c at *
  have hfirsts : c.firsts = [0, 1] := by subst he; rfl
  have hsp : ∀ f ∈ c.firsts, c.isSparse f = true := by
    rw [hfirsts]; subst he
    intro f hf
    rcases List.mem_cons.1 hf with rfl | hf
    · rfl
    · have : f = 1 := by simpa using hf
      subst this; rfl
  have hfil : c.firsts.filter c.isSparse = c.firsts := List.filter_eq_self.2 hsp
  have hpo := hg.partials_ok inp (by
      subst he
      intro i hi
      have hi : i < 2 := hi
      have : (alphabet.filter (· ∉ ['i', ',', 'i', '-', '>', 'i'])).length = 25 := by decide
      show _ ≤ (alphabet.filter (· ∉ ['i', ',', 'i', '-', '>', 'i'])).length
      rw [this]
      interval_cases i <;> simp [Einsum.shapeAt]) (by
      rw [hfirsts]
      intro f hf
      rcases List.mem_cons.1 hf with rfl | hf
      · rfl
      · have : f = 1 := by simpa using hf
        subst this; rfl)
  have hins : c.ins = [("y", n), ("x", 1)] := by
    rw [Einsum.ins, hfirsts]; subst he
    simp [Einsum.name, Einsum.sizeAt, Einsum.shapeAt, prodShape]
  have hsize : c.size = n := by subst he; simp [Einsum.size, prodShape]
  have hcomp : ∀ z, c.compute z r = z "y" r * z "x" 0 := by
    intro z
    have hn : c.names.length = 2 := by subst he; rfl
    have hn0 : c.name 0 = "y" := by subst he; rfl
    have hn1' : c.name 1 = "x" := by subst he; rfl
    have hs : npSummed [(['i'], [n]), (['i'], [1])] ['i'] = [] := by rw [npSummed, hax]; rfl
    have ht : npTerms c.t c.npOut = [[]] := by
      subst he
      show npTerms [(['i'], [n]), (['i'], [1])] ['i'] = _
      rw [npTerms, hs]; rfl
    have hes : npEinsumShape [(['i'], [n]), (['i'], [1])] ['i'] = [n] := by
      show [npDim [('i', n), ('i', 1)] 'i'] = _
      rw [hdim]
    have p0 : npPosAt c.t c.npOut 0 r [] = r := by
      subst he
      show npPosAt [(['i'], [n]), (['i'], [1])] ['i'] 0 r [] = r
      rw [npPosAt, npEnv, hs, hes]
      simp [npPos, hn1, ravel, npLookup, unravel, prodShape, Nat.mod_eq_of_lt hr]
    have p1 : npPosAt c.t c.npOut 1 r [] = 0 := by
      subst he
      show npPosAt [(['i'], [n]), (['i'], [1])] ['i'] 1 r [] = 0
      rw [npPosAt, npEnv, hs, hes]
      simp [npPos, ravel, prodShape]
    rw [hg.compute_eq, ht, hn]
    simp [Finset.prod_range_succ, p0, p1, hn0, hn1']
  refine ⟨c, fun name =>
        let f := c.names.idxOf name
        let a := (c.firsts.map (c.total inp)).getD (c.firsts.idxOf f) fun _ => 0
        if c.isSparse f then
          ⟨(c.pattern f).map (· / c.sizeAt f), (c.pattern f).map (· % c.sizeAt f), (c.pattern f).map a⟩
        else denseCoo c.size (c.sizeAt f) a, hc, ?_, ?_⟩
  · unfold Einsum.sparsePartials
    simp only
    rw [hfil, if_neg, hpo]
    · simp only
      rw [if_neg]
      rw [hfirsts]
      decide
    · rw [hfirsts, hsize]
      rintro ⟨f, hf, hz⟩
      rcases List.mem_cons.1 hf with rfl | hf
      · subst he
        simp [Einsum.sizeAt, Einsum.shapeAt, prodShape] at hz
        omega
      · have : f = 1 := by simpa using hf
        subst this; subst he
        simp [Einsum.sizeAt, Einsum.shapeAt, prodShape] at hz
        omega
  · intro hex
    have hnd : (c.ins.map Prod.fst).Nodup := c.ins_nodup
    have hL := ((hasFDerivAt_input c.ins "y" r (slots c.ins inp)).mul
      (hasFDerivAt_input c.ins "x" 0 (slots c.ins inp))).congr_of_eventuallyEq
        (f₁ := fun y => c.compute (inputsOf c.ins y) r) (Filter.Eventually.of_forall fun y => hcomp _)
    have hv : ∀ (w : String → Nat → ℝ) n N j, (n, N) ∈ c.ins → j < N → inputsOf c.ins (slots c.ins w) n j = w n j :=
      fun w n N j hm hj => inputsOf_slots hnd w hm hj
    have e := exactPartials_action hnd hex (i := r) (by show r < c.size; omega) hL
      (slots c.ins fun n _ => if n = "x" then 1 else 0)
    have hpat : c.pattern 1 = [0] := by
      have hp : c.patternAt 1 1 = [0] := by subst he; simp [Einsum.patternAt, Einsum.shapeAt, cartesian, prodShape, ravel, unravel]
      have hl : c.locations 1 = [1] := by subst he; rfl
      have hs1 : c.sizeAt 1 = 1 := by subst he; rfl
      rw [Einsum.pattern, hl, hsize, hs1]
      simp only [List.flatMap_cons, List.flatMap_nil, hp]
      obtain ⟨m, rfl⟩ : ∃ m, n = m + 1 := ⟨n - 1, by omega⟩
      rw [Nat.mul_one, List.range_succ_eq_map, List.filter_cons_of_pos (by simp), List.filter_eq_nil_iff.2]
      intro a ha
      obtain ⟨b, _, rfl⟩ := List.mem_map.1 ha
      simp
    have sum2 : ∀ F : String × Nat → ℝ, (c.ins.map F).sum = F ("y", n) + F ("x", 1) := by
      intro F; rw [hins]; simp
    have hy : ("y", n) ∈ c.ins := by rw [hins]; simp
    have hx : ("x", 1) ∈ c.ins := by rw [hins]; simp
    rw [sum2] at e
    simp only [add_apply, smul_apply, smul_eq_mul, inputL_apply] at e
    rw [hv _ "y" n r hy hr, hv _ "x" 1 0 hx (by decide), hv _ "y" n r hy hr, hv _ "x" 1 0 hx (by decide)] at e
    have hi1 : c.names.idxOf "x" = 1 := by subst he; rfl
    have hs1 : c.isSparse 1 = true := hsp 1 (by rw [hfirsts]; simp)
    have zx : ∀ (a : Nat → ℝ) (u : Nat → ℝ), Coo.apply ⟨(c.pattern 1).map (· / c.sizeAt 1),
        (c.pattern 1).map (· % c.sizeAt 1), (c.pattern 1).map a⟩ u r = 0 := by
      intro a u; rw [hpat]; simp [Coo.apply, cooApply, h0.ne]
    have zy : ∀ C : Coo, (∀ j ∈ C.cols, j < n) →
        C.apply (inputsOf c.ins (slots c.ins fun n _ => if n = "x" then 1 else 0) "y") r = 0 := by
      intro C hC
      rw [Coo.apply, cooApply_congr (z := fun _ => 0) r fun j hj => ?_]
      · unfold cooApply; simp
      · rw [hv _ "y" n j hy (hC j hj)]; simp
    rw [zy _ (hex.cols _ hy)] at e
    simp only [hi1, hs1, if_true] at e
    rw [zx] at e
    simp at e
    exact h1 e

/-- The hypotheses hold for instance for length 3 if all inputs are one. -/
example : 0 < 1 ∧ 1 < 3 ∧ (fun (_ : String) (_ : Nat) => (1 : ℝ)) "y" 1 ≠ 0 := ⟨by decide, by decide, one_ne_zero⟩

end OM
