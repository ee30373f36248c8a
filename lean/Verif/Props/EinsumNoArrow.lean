import Verif.Props.EinsumDerivs

/-!
# einsum with strings of subscripts without an arrow (C44, C45)

NumPy keeps the labels that occur once. omtools takes the labels of the last operand for those of the result.
-/

namespace OM
open Spec

/-- `ab,bc` -/
def Spec.joined (ops : List (List Char)) : List Char := [','].intercalate ops

/-- The labels that occur once, in alphabetical order: those of NumPy's result. -/
structure Spec.Once (ops : List (List Char)) (out : List Char) : Prop where
  sorted : out.Pairwise (· < ·)
  mem : ∀ ch, ch ∈ out ↔ ops.flatten.count ch = 1

theorem alpha_ascii {ch : Char} (h : ch.isAlpha = true) : ch ∈ asciiLetters := by
  have h1 : Char.ofNat ch.toNat = ch := Char.ofNat_toNat ch
  have h2 : (65 ≤ ch.toNat ∧ ch.toNat ≤ 90) ∨ (97 ≤ ch.toNat ∧ ch.toNat ≤ 122) := by
    simp only [Char.isAlpha, Char.isUpper, Char.isLower, Bool.or_eq_true, Bool.and_eq_true, decide_eq_true_eq] at h
    exact h
  rw [← h1]
  generalize ch.toNat = n at h2
  rcases h2 with ⟨h3, h4⟩ | ⟨h3, h4⟩ <;> interval_cases n <;> decide

theorem ascii_sorted : asciiLetters.Pairwise (· < ·) := by decide

theorem char_ne {a b : Char} (h : a < b) : a ≠ b := by
  rintro rfl
  exact Char.lt_irrefl _ h

theorem once_unique {ops : List (List Char)} (ho : ∀ o ∈ ops, Alpha o) {out : List Char} (h : Once ops out) :
    (asciiLetters.filter fun ch => ops.flatten.count ch = 1) = out := by
  have hs : (asciiLetters.filter fun ch => ops.flatten.count ch = 1).Pairwise (· < ·) := ascii_sorted.filter _
  have hm : ∀ ch, ch ∈ (asciiLetters.filter fun ch => ops.flatten.count ch = 1) ↔ ch ∈ out := by
    intro ch
    rw [h.mem, List.mem_filter]
    refine ⟨fun h => by simpa using h.2, fun h => ⟨?_, by simpa using h⟩⟩
    have : ch ∈ ops.flatten := List.count_pos_iff.1 (by omega)
    obtain ⟨o, h1, h2⟩ := List.mem_flatten.1 this
    exact alpha_ascii (ho o h1 ch h2)
  refine List.Perm.eq_of_pairwise (le := (· < ·)) (fun a b _ _ h1 h2 => absurd h2 (Char.lt_asymm h1)) hs h.sorted ?_
  exact (List.perm_ext_iff_of_nodup (hs.imp char_ne) (h.sorted.imp char_ne)).2 hm

theorem npParse_joined {ops : List (List Char)} {out : List Char} (hne : ops ≠ []) (ho : ∀ o ∈ ops, Alpha o)
    (hout : Once ops out) : npParse (joined ops) = .ok (ops, out) := by
  have hl := intercalate_letters ho
  have hf : (joined ops).filter (· ≠ ' ') = joined ops :=
    List.filter_eq_self.2 fun ch h => by simpa using (hl ch h).2
  unfold npParse
  rw [hf, joined, splitArrow_letters hl]
  simp only [List.reverse_nil, List.nil_append]
  have hsp : splitComma [] ([','].intercalate ops) = ops := splitComma_intercalate hne ho
  simp only [hsp, once_unique ho hout]
  refine if_pos ⟨ho, ?_⟩
  intro ch hc
  have : ch ∈ ops.flatten := List.count_pos_iff.1 (by rw [(hout.mem ch).1 hc]; exact Nat.one_pos)
  obtain ⟨o, h1, h2⟩ := List.mem_flatten.1 this
  exact ho o h1 ch h2

theorem einsumToList_joined {ops : List (List Char)} (hne : ops ≠ []) (ho : ∀ o ∈ ops, Alpha o) :
    einsumToList [] (joined ops) = ops := by
  unfold joined
  induction ops with
  | nil => exact absurd rfl hne
  | cons o ops ih =>
    cases ops with
    | nil =>
      have := einsumToList_alpha (ho o (by simp)) [] []
      rw [List.append_nil] at this
      simp [this, einsumToList]
    | cons o' ops =>
      rw [List.intercalate_cons_cons, List.append_assoc, einsumToList_alpha (ho o (by simp))]
      simp only [List.cons_append, List.nil_append]
      rw [einsumToList, if_neg (by decide), if_pos (by simp), ih (by simp) fun p hp => ho p (by simp [hp])]
      simp

theorem firstAxis_more (len : Char → Nat) (ops : List (List Char)) (rest : List (List Nat)) (ch : Char) :
    firstAxis ch ops (ops.map (List.map len) ++ rest) = .ok (if ch ∈ ops.flatten then some (len ch) else none) := by
  induction ops with
  | nil => simp [firstAxis]
  | cons S ops ih =>
    rw [List.map_cons, List.cons_append, firstAxis]
    by_cases hc : ch ∈ S
    · have hlt := List.idxOf_lt_length_of_mem hc
      rw [if_pos hc]
      rw [List.getElem?_map, List.getElem?_eq_getElem hlt, List.getElem_idxOf hlt, if_pos (by simp [hc])]
      rfl
    · rw [if_neg hc, List.tail_cons, ih]
      simp [hc]

/-- The shape that is announced: the labels of the last operand that occur in an earlier one. -/
def Spec.announcedLast (len : Char → Nat) (pre : List (List Char)) (last : List Char) : List Nat :=
  if last = [] then [1] else (last.filter (· ∈ pre.flatten)).map len

theorem computeShape_joined (len : Char → Nat) (pre : List (List Char)) (last : List Char) :
    computeEinsumShape (pre ++ [last]) ((pre ++ [last]).map (List.map len)) = .ok (announcedLast len pre last) := by
  unfold computeEinsumShape announcedLast
  simp only [List.getLastD_concat, List.dropLast_concat, List.map_append]
  by_cases hn : last = []
  · rw [if_pos hn, if_pos hn]
  · rw [if_neg hn, if_neg hn]
    have : ∀ l : List Char, (l.mapM fun ch => firstAxis ch pre (pre.map (List.map len) ++ [last].map (List.map len)))
        = .ok (l.map fun ch => if ch ∈ pre.flatten then some (len ch) else none) := by
      intro l
      induction l with
      | nil => rfl
      | cons ch l ih =>
        rw [List.mapM_cons, firstAxis_more len pre _ ch, ih]
        rfl
    rw [this last]
    have hro : ∀ l : List Char, (l.map fun ch => if ch ∈ pre.flatten then some (len ch) else none).reduceOption
        = (l.filter (· ∈ pre.flatten)).map len := by
      intro l
      induction l with
      | nil => rfl
      | cons x l ih =>
        by_cases hx : x ∈ pre.flatten
        · rw [List.map_cons, if_pos hx, List.filter_cons_of_pos (by simpa using hx), List.map_cons]
          exact congrArg (len x :: ·) ih
        · rw [List.map_cons, if_neg hx, List.filter_cons_of_neg (by simpa using hx)]
          exact ih
    simp only [hro]

section
variable {operands : List (String × List Nat)} {pre : List (List Char)} {last out : List Char} {len : Char → Nat}

theorem joined_lengths {ops : List (List Char)} (hpos : ∀ ch, 0 < len ch)
    (hsh : operands.map Prod.snd = ops.map (List.map len)) : ops.length = operands.length ∧ Lengths operands ops len := by
  have hl : ops.length = operands.length := by
    have := congrArg List.length hsh
    simpa using this.symm
  have hat : ∀ k (hk : k < ops.length) (hk' : k < operands.length), operands[k].2 = ops[k].map len := by
    intro k hk hk'
    have h1 : (operands.map Prod.snd)[k]'(by simpa using hk') = (ops.map (List.map len))[k]'(by simpa using hk) := by
      simp only [hsh]
    simpa using h1
  refine ⟨hl, ⟨?_, ?_, hpos⟩⟩
  · intro k hk hk' j hj hj'
    right
    simp [hat k hk hk']
  · intro o ho' ch hc
    obtain ⟨k, hk, rfl⟩ := List.mem_iff_getElem.1 ho'
    obtain ⟨j, hj, rfl⟩ := List.mem_iff_getElem.1 hc
    have hk' : k < operands.length := by omega
    exact ⟨k, hk, hk', j, hj, by simp [hat k hk hk', hj], rfl, by simp [hat k hk hk']⟩

theorem joined_ok {ops : List (List Char)} (hne : ops ≠ []) (hpos : ∀ ch, 0 < len ch)
    (hsh : operands.map Prod.snd = ops.map (List.map len)) (hout : Once ops out) :
    NpEinsumOk (ops.zip (operands.map Prod.snd)) out ∧
      npEinsumShape (ops.zip (operands.map Prod.snd)) out = out.map len := by
  obtain ⟨hl, hlen⟩ := joined_lengths hpos hsh
  have hfst : (npAxes (ops.zip (operands.map Prod.snd))).map Prod.fst = ops.flatten := by
    refine map_fst_npAxes (by simpa using hl) fun p hp => ?_
    rw [hsh] at hp
    rw [(zip_map_snd hp).2, List.length_map]
  have hin : ∀ ch ∈ out, ch ∈ ops.flatten := fun ch hc =>
    List.count_pos_iff.1 (by rw [(hout.mem ch).1 hc]; exact Nat.one_pos)
  refine ⟨⟨?_, ?_, ?_, hout.sorted.imp char_ne, ?_⟩, ?_⟩
  · rw [Ne, List.zip_eq_nil_iff, not_or]
    refine ⟨hne, fun h => hne ?_⟩
    rw [hsh] at h
    simpa using h
  · intro p hp
    rw [hsh] at hp
    obtain ⟨h1, h2⟩ := zip_map_snd hp
    refine ⟨by rw [h2, List.length_map], fun a ha b hb hab => ?_⟩
    rw [h2] at ha hb
    rw [zip_map_len ha, zip_map_len hb, hab]
  · intro a ha
    right
    obtain ⟨p, hp, hap⟩ := List.mem_flatMap.1 ha
    rw [hsh] at hp
    obtain ⟨h1, h2⟩ := zip_map_snd hp
    rw [h2] at hap
    rw [npDim_eq hlen h1 (List.of_mem_zip hap).1, zip_map_len hap]
  · rw [hfst]; exact hin
  · refine List.map_congr_left fun ch hc => ?_
    obtain ⟨o, h1, h2⟩ := List.mem_flatten.1 (hin ch hc)
    exact npDim_eq hlen h1 h2

/-- What a call without an arrow comes to. -/
theorem stdEinsum_joined (ho : ∀ o ∈ pre ++ [last], Alpha o) (hs : joined (pre ++ [last]) ≠ []) (hpos : ∀ ch, 0 < len ch)
    (hsh : operands.map Prod.snd = (pre ++ [last]).map (List.map len)) (hout : Once (pre ++ [last]) out) :
    stdEinsum operands (joined (pre ++ [last])) =
      if (out.map len).prod ≠ (announcedLast len pre last).prod ∧ (out.map len).prod ≠ 1 then .error .valueError
      else .ok ⟨operands.map Prod.fst, operands.map Prod.snd, pre ++ [last], pre ++ [last], out,
        alphabet.filter (· ∉ joined (pre ++ [last])), announcedLast len pre last⟩ := by
  have hne : pre ++ [last] ≠ [] := by simp
  obtain ⟨hl, -⟩ := joined_lengths hpos hsh
  obtain ⟨hok, hshape⟩ := joined_ok hne hpos hsh hout
  unfold stdEinsum
  rw [if_neg hs]
  simp only
  rw [einsumToList_joined hne ho, npParse_joined hne ho hout]
  rw [show computeEinsumShape (pre ++ [last]) (operands.map Prod.snd) = .ok (announcedLast len pre last) by
    rw [hsh]; exact computeShape_joined len pre last]
  simp only
  rw [if_neg (not_not.2 hl), if_neg (not_not.2 hok), hshape]
  rfl

/-- **C44, without an arrow.** NumPy's result has the labels `out` that occur once. The shape announced is made of the
labels of the last operand that occur in an earlier one, none of which is a label of the result. The call is accepted
iff the sizes agree or the result has one entry; then the entries are those of the result, in its own order of axes, or
all are the one entry of the result. So shape and value are as claimed only where `out.map len` happens to be the shape
announced. -/
theorem c44_no_arrow_exactly (ho : ∀ o ∈ pre ++ [last], Alpha o) (hs : joined (pre ++ [last]) ≠ [])
    (hpos : ∀ ch, 0 < len ch) (hsh : operands.map Prod.snd = (pre ++ [last]).map (List.map len))
    (hout : Once (pre ++ [last]) out) :
    ((∃ c, stdEinsum operands (joined (pre ++ [last])) = .ok c) ↔
      (out.map len).prod = (announcedLast len pre last).prod ∨ (out.map len).prod = 1) ∧
    (∀ e, stdEinsum operands (joined (pre ++ [last])) = .error e → e = .valueError) ∧
    (∀ ch ∈ last, ch ∈ pre.flatten → ch ∉ out) ∧
    ∀ c, stdEinsum operands (joined (pre ++ [last])) = .ok c → c.shape = announcedLast len pre last ∧
      ∀ inp o, InBounds (out.map len) o →
        let v := ((indices ((summed (pre ++ [last]) out).map len)).map fun q =>
          (List.zipWith (fun p labels => factor inp p labels (value (out ++ summed (pre ++ [last]) out) (o ++ q)))
            operands (pre ++ [last])).prod).sum
        ((out.map len).prod = c.shape.prod → c.compute inp (ravel (out.map len) o) = v) ∧
        ((out.map len).prod ≠ c.shape.prod → ∀ r, c.compute inp r = v) := by
  have hne : pre ++ [last] ≠ [] := by simp
  obtain ⟨hl, hlen⟩ := joined_lengths hpos hsh
  obtain ⟨hok, hshape⟩ := joined_ok hne hpos hsh hout
  rw [stdEinsum_joined ho hs hpos hsh hout]
  refine ⟨?_, ?_, ?_, ?_⟩
  · constructor
    · rintro ⟨c, hc⟩
      by_contra hno
      rw [not_or] at hno
      rw [if_pos hno] at hc
      cases hc
    · intro h
      rw [if_neg (by tauto)]
      exact ⟨_, rfl⟩
  · intro e he
    split at he
    · exact (Except.error.inj he).symm
    · cases he
  · intro ch h1 h2 h3
    have h4 := (hout.mem ch).1 h3
    rw [List.flatten_append, List.count_append] at h4
    have h5 := List.count_pos_iff.2 h2
    have h6 : 0 < List.count ch [last].flatten := List.count_pos_iff.2 (by simpa using h1)
    omega
  · intro c hc
    split at hc
    · cases hc
    next hcond =>
    obtain rfl := Except.ok.inj hc
    refine ⟨rfl, ?_⟩
    intro inp o hi
    have hval := npEinsum_value hlen hl hok inp hi
      (xs := fun k => inp ((operands.map Prod.fst).getD k "")) fun k hk => by
        simp [List.getD_eq_getElem?_getD, hk]
    refine ⟨fun hsize => ?_, fun hsize r => ?_⟩
    · rw [← hval]
      refine if_pos ?_
      rw [hshape]
      exact hsize
    · rw [← hval]
      have h1 : (out.map len).prod = 1 := by
        by_contra h1
        exact hcond ⟨hsize, h1⟩
      have h0 : ravel (out.map len) o = 0 := by
        have := ravel_lt hi
        unfold prodShape at this
        omega
      rw [h0]
      refine if_neg ?_
      rw [hshape]
      exact hsize

/-- **C45, without an arrow**: `compute_partials` raises an exception for every string and all inputs, with dense and with
sparse partials. -/
theorem c45_no_arrow (ho : ∀ o ∈ pre ++ [last], Alpha o) (hs : joined (pre ++ [last]) ≠ [])
    (hpos : ∀ ch, 0 < len ch) (hsh : operands.map Prod.snd = (pre ++ [last]).map (List.map len))
    (hout : Once (pre ++ [last]) out) {c : Einsum} (h : stdEinsum operands (joined (pre ++ [last])) = .ok c)
    (inp : String → Nat → ℝ) :
    c.densePartials inp = .error .valueError ∧ c.sparsePartials inp = .error .valueError := by
  obtain ⟨hl, hlen⟩ := joined_lengths hpos hsh
  rw [stdEinsum_joined ho hs hpos hsh hout] at h
  split at h
  · cases h
  obtain rfl := Except.ok.inj h
  set c : Einsum := ⟨operands.map Prod.fst, operands.map Prod.snd, pre ++ [last], pre ++ [last], out,
        alphabet.filter (· ∉ joined (pre ++ [last])), announcedLast len pre last⟩ with hc
  have hn : c.names.length = pre.length + 1 := by
    simp only [hc, List.length_map]
    rw [← hl]
    simp
  have hder : ∀ i rank s, c.derivAt inp i rank s = .error .valueError := by
    intro i rank s
    unfold Einsum.derivAt
    refine if_pos (Or.inl ?_)
    rw [List.length_set, hn]
    simp [hc]
  have hf : ∃ fs, c.firsts = 0 :: fs := by
    unfold Einsum.firsts
    rw [hn, List.range_succ_eq_map, List.filter_cons_of_pos (by simp)]
    exact ⟨_, rfl⟩
  obtain ⟨fs, hfs⟩ := hf
  have h0 : c.partial_ inp 0 = .error .valueError := by
    unfold Einsum.partial_
    have h1 : c.identities[0]? = some (c.shapeAt 0) := by simp [Einsum.identities, hfs]
    have h2 : c.identities[c.firsts.idxOf 0]? = some (c.shapeAt 0) := by simp [Einsum.identities, hfs]
    rw [h1, h2]
    simp only [hder]
  have hm : (c.firsts.mapM fun f => c.partial_ inp f) = .error .valueError := by
    rw [hfs, List.mapM_cons, h0]
    rfl
  constructor
  · unfold Einsum.densePartials
    rw [hm]
  · unfold Einsum.sparsePartials
    simp only [hm]
    split <;> rfl

end

/-- `'ij,jk'`, the matrix product for NumPy, is announced with the shape `[3]` of `j`, and refused. -/
example : ¬ ∃ c, stdEinsum [("x", [2, 3]), ("y", [3, 4])] (joined ["ij".toList, "jk".toList]) = .ok c := by
  refine fun h => absurd ((c44_no_arrow_exactly (pre := ["ij".toList]) (last := "jk".toList) (out := "ik".toList)
    (len := fun ch => if ch = 'i' then 2 else if ch = 'j' then 3 else 4) (by decide) (by decide)
    (by intro ch; split <;> (try split) <;> decide) rfl
    ⟨by decide, fun ch => by
      by_cases h1 : ch = 'i'
      · subst h1; decide
      · by_cases h2 : ch = 'k'
        · subst h2; decide
        · by_cases h3 : ch = 'j'
          · subst h3; decide
          · simp [h1, h2, List.count_cons, Ne.symm h1, Ne.symm h2, Ne.symm h3]⟩).1.1 h) (by decide)

/-- `'i,ij'` with a square matrix: the result has the label `j`, the shape announced that of `i`, which is the same. -/
example : ∃ c, stdEinsum [("x", [2]), ("y", [2, 2])] (joined ["i".toList, "ij".toList]) = .ok c ∧ c.shape = [2] ∧
    c.npOut = ['j'] := ⟨_, rfl, rfl, rfl⟩

end OM
