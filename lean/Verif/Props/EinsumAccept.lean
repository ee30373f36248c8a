import Verif.Props.Einsum
import Verif.Props.Operands

/-! # Exactly which operands einsum accepts (C44) -/

namespace OM
open Spec

/-- Axis `j` of operand `k` is the first one with the label `ch`. -/
def Spec.FirstAxis (ops : List (List Char)) (ch : Char) (k j : Nat) : Prop :=
  (∃ (hk : k < ops.length) (hj : j < ops[k].length), ops[k][j] = ch ∧ ∀ j' (hj' : j' < j), ops[k][j'] ≠ ch) ∧
  ∀ k' (hk' : k' < ops.length), k' < k → ch ∉ ops[k']

theorem ne_of_lt_idxOf {S : List Char} {ch : Char} {i : Nat} (h : i < S.idxOf ch) (hi : i < S.length) : S[i] ≠ ch := by
  have := List.not_of_lt_findIdx (p := (· == ch)) (xs := S) (i := i) h
  simpa using this

theorem firstAxis_at {ops : List (List Char)} {shapes : List (List Nat)} {ch : Char} {k j : Nat}
    (h : FirstAxis ops ch k j) (hk : k < shapes.length) (hj : j < shapes[k].length) :
    firstAxis ch ops shapes = .ok (some shapes[k][j]) := by
  induction ops generalizing shapes k with
  | nil => obtain ⟨⟨h1, _⟩, _⟩ := h; simp at h1
  | cons S ops ih =>
    obtain ⟨⟨h1, h2, h3, h4⟩, h5⟩ := h
    match shapes, hk, hj with
    | s :: shapes, hk, hj =>
      rw [firstAxis]
      cases k with
      | zero =>
        simp only [List.getElem_cons_zero] at h2 h3 h4 hj
        have hi : S.idxOf ch = j := by
          have hc : ch ∈ S := h3 ▸ List.getElem_mem h2
          have hlt := List.idxOf_lt_length_of_mem hc
          rcases Nat.lt_trichotomy (S.idxOf ch) j with hh | hh | hh
          · exact absurd (List.getElem_idxOf hlt) (h4 _ hh)
          · exact hh
          · exact absurd h3 (ne_of_lt_idxOf hh h2)
        rw [if_pos (h3 ▸ List.getElem_mem h2)]
        simp [hi, List.getElem?_eq_getElem hj]
      | succ k =>
        have h0 : ch ∉ S := h5 0 (by simp) (by omega)
        rw [if_neg h0, List.tail_cons]
        simp only [List.getElem_cons_succ] at h2 h3 h4 hj ⊢
        refine ih ⟨⟨by simpa using h1, h2, h3, h4⟩, fun k' hk' hlt => ?_⟩ (by simpa using hk) hj
        have := h5 (k' + 1) (by simpa using hk') (by omega)
        simpa using this

theorem exists_firstAxis {ops : List (List Char)} {ch : Char} (h : ∃ o ∈ ops, ch ∈ o) :
    ∃ k j, FirstAxis ops ch k j := by
  induction ops with
  | nil => simp at h
  | cons S ops ih =>
    by_cases hc : ch ∈ S
    · have hlt := List.idxOf_lt_length_of_mem hc
      refine ⟨0, S.idxOf ch, ⟨⟨by simp, by simpa using hlt, by simp, fun j' hj' => ?_⟩, fun k' _ hk' => by omega⟩⟩
      simpa using ne_of_lt_idxOf hj' (by omega)
    · obtain ⟨k, j, ⟨h1, h2, h3, h4⟩, h5⟩ := ih (by
        obtain ⟨o, ho, hco⟩ := h
        rcases List.mem_cons.1 ho with rfl | ho
        · exact absurd hco hc
        · exact ⟨o, ho, hco⟩)
      refine ⟨k + 1, j, ⟨⟨by simpa using h1, by simpa using h2, by simpa using h3, by simpa using h4⟩, ?_⟩⟩
      intro k' hk' hlt
      cases k' with
      | zero => simpa using hc
      | succ k' => simpa using h5 k' (by simpa using hk') (by omega)

theorem npDim_pos {axes : List (Char × Nat)} (h : ∀ a ∈ axes, 0 < a.2) (ch : Char) : 0 < npDim axes ch := by
  unfold npDim
  cases hf : ((axes.filter fun a => a.1 = ch).map Prod.snd).find? (· ≠ 1) with
  | none => simp
  | some n =>
    obtain ⟨a, ha, rfl⟩ := List.mem_map.1 (List.mem_of_find?_eq_some hf)
    exact h a (List.mem_filter.1 ha).1

theorem npDim_attained {axes : List (Char × Nat)} {ch : Char} (h : ch ∈ axes.map Prod.fst) :
    (ch, npDim axes ch) ∈ axes := by
  have hmem : ∀ n ∈ (axes.filter fun a => a.1 = ch).map Prod.snd, (ch, n) ∈ axes := by
    intro n hn
    obtain ⟨a, ha, rfl⟩ := List.mem_map.1 hn
    obtain ⟨ha, hch⟩ := List.mem_filter.1 ha
    have : a.1 = ch := of_decide_eq_true hch
    rw [← this]
    exact ha
  unfold npDim
  cases hf : ((axes.filter fun a => a.1 = ch).map Prod.snd).find? (· ≠ 1) with
  | none =>
    obtain ⟨a, ha, rfl⟩ := List.mem_map.1 h
    have h1 : a.2 ∈ (axes.filter fun b => b.1 = a.1).map Prod.snd :=
      List.mem_map.2 ⟨a, List.mem_filter.2 ⟨ha, by simp⟩, rfl⟩
    have h2 := List.find?_eq_none.1 hf a.2 h1
    have h3 : a.2 = 1 := by simpa using h2
    have := hmem _ h1
    rw [h3] at this
    exact this
  | some n => exact hmem n (List.mem_of_find?_eq_some hf)

/-- **C44**, exactly what is accepted (axes have at least one entry): as many lists of labels as operands, as many labels
as axes, different labels of operands in the result, axes of one operand with the same label of the same length,
axes with the same label of the same length or of length one; and, what the claim does not say, that the
first axis with a label of the result is not one of length one that is broadcast. -/
theorem c44_accepted_exactly {operands : List (String × List Nat)} {ops : List (List Char)} {out : List Char}
    (hne : ops ≠ []) (ho : ∀ o ∈ ops, Alpha o) (hout : Alpha out) (hpos : ∀ p ∈ operands, ∀ n ∈ p.2, 0 < n) :
    (∃ c, stdEinsum operands (subscripts ops out) = .ok c) ↔
      List.Forall₂ (fun o p => o.length = p.2.length) ops operands ∧
      out.Nodup ∧ (∀ ch ∈ out, ∃ o ∈ ops, ch ∈ o) ∧
      (∀ k (hk : k < ops.length) (hk' : k < operands.length) i j, ∀ (hi : i < ops[k].length) (hj : j < ops[k].length)
        (hi' : i < operands[k].2.length) (hj' : j < operands[k].2.length),
        ops[k][i] = ops[k][j] → operands[k].2[i] = operands[k].2[j]) ∧
      ∃ len, Lengths operands ops len ∧
        ∀ ch ∈ out, ∀ k j (hk : k < operands.length) (hj : j < operands[k].2.length),
          FirstAxis ops ch k j → operands[k].2[j] = len ch := by
  have hsub : subscripts ops out ≠ [] := by simp [subscripts, arrow]
  constructor
  · rintro ⟨c, hc⟩
    have ha := stdEinsum_ok hne ho hout hc
    have hF : List.Forall₂ (fun o p => o.length = p.2.length) ops operands := by
      refine List.forall₂_iff_get.2 ⟨ha.len, fun k hk hk' => ?_⟩
      refine (ha.ok.2.1 (ops[k], operands[k].2) ?_).1
      exact List.mem_iff_getElem.2 ⟨k, by simp; omega, by simp⟩
    have hfst : (npAxes (ops.zip (operands.map Prod.snd))).map Prod.fst = ops.flatten :=
      map_fst_npAxes ha.lenShapes fun p hp => (ha.ok.2.1 p hp).1
    have hin : ∀ ch ∈ out, ∃ o ∈ ops, ch ∈ o := by
      intro ch hch
      have := ha.ok.2.2.2.2 ch hch
      rw [hfst] at this
      exact List.mem_flatten.1 this
    have hlen : Lengths operands ops (npDim (npAxes (ops.zip (operands.map Prod.snd)))) := by
      refine ⟨?_, ?_, npDim_pos ?_⟩
      · intro k hk hk' j hj hj'
        have := ha.ok.2.2.1 (ops[k][j], operands[k].2[j])
          (mem_npAxes_iff.2 ⟨k, hk, by simpa using hk', j, hj, by simpa using hj', by simp⟩)
        exact this
      · intro o ho' ch hch
        have hmem : ch ∈ (npAxes (ops.zip (operands.map Prod.snd))).map Prod.fst := by
          rw [hfst]; exact List.mem_flatten.2 ⟨o, ho', hch⟩
        obtain ⟨k, hk, hk', j, hj, hj', he⟩ := mem_npAxes_iff.1 (npDim_attained hmem)
        have h1 := congrArg Prod.fst he
        have h2 := congrArg Prod.snd he
        simp only at h1 h2
        exact ⟨k, hk, by simpa using hk', j, hj, by simpa using hj', h1.symm, by simpa using h2.symm⟩
      · intro a haa
        obtain ⟨k, hk, hk', j, hj, hj', rfl⟩ := mem_npAxes_iff.1 haa
        simp only [List.getElem_map]
        exact hpos _ (List.getElem_mem _) _ (List.getElem_mem _)
    refine ⟨hF, ha.ok.2.2.2.1, hin, ?_, _, hlen, ?_⟩
    · intro k hk hk' i j hi hj hi' hj' hij
      refine (ha.ok.2.1 (ops[k], operands[k].2) (List.mem_iff_getElem.2 ⟨k, by simp; omega, by simp⟩)).2
        (ops[k][i], operands[k].2[i]) ?_ (ops[k][j], operands[k].2[j]) ?_ hij
      · exact List.mem_iff_getElem.2 ⟨i, by simp; omega, by simp⟩
      · exact List.mem_iff_getElem.2 ⟨j, by simp; omega, by simp⟩
    · intro ch hch k j hk hj hfa
      have hon : out ≠ [] := by rintro rfl; simp at hch
      have hshape := c44_shape hne ho hout hlen hc
      rw [if_neg hon] at hshape
      have hs := ha.shape
      unfold computeEinsumShape at hs
      simp only [List.getLastD_concat, List.dropLast_concat] at hs
      rw [if_neg hon] at hs
      split at hs
      · cases hs
      · rename_i l hm
        have hl : l.reduceOption = out.map (npDim (npAxes (ops.zip (operands.map Prod.snd)))) := by
          rw [← hshape]; exact Except.ok.inj hs
        have hall : ∀ ch ∈ out, ∃ n, firstAxis ch ops (operands.map Prod.snd) = .ok (some n) := by
          intro ch' hc'
          obtain ⟨k', j', hf'⟩ := exists_firstAxis (hin ch' hc')
          obtain ⟨⟨h1, h2, -⟩, -⟩ := id hf'
          have h3 : k' < operands.length := by rw [← ha.len]; exact h1
          have h4 := (List.forall₂_iff_get.1 hF).2 k' h1 h3
          simp only [List.get_eq_getElem] at h4
          exact ⟨_, firstAxis_at hf' (by simpa using h3) (by simp only [List.getElem_map]; omega)⟩
        have key : ∀ (o : List Char) (l : List (Option Nat)) (d : Char → Nat),
            (∀ ch ∈ o, ∃ n, firstAxis ch ops (operands.map Prod.snd) = .ok (some n)) →
            List.Forall₂ (fun a b => firstAxis a ops (operands.map Prod.snd) = .ok b) o l →
            l.reduceOption = o.map d → ∀ ch ∈ o, firstAxis ch ops (operands.map Prod.snd) = .ok (some (d ch)) := by
          intro o l d hall h
          induction h with
          | nil => simp
          | @cons a b o l hab _ ih =>
            intro he ch hc
            obtain ⟨n, hn⟩ := hall a (by simp)
            rw [hn] at hab
            obtain rfl := Except.ok.inj hab
            have he' : n :: l.reduceOption = d a :: o.map d := he
            obtain ⟨h1, h2⟩ := List.cons.inj he'
            rcases List.mem_cons.1 hc with rfl | hc
            · rw [hn, h1]
            · exact ih (fun ch hc => hall ch (by simp [hc])) h2 ch hc
        have h1 := key out l _ hall (mapM_forall₂ hm) hl ch hch
        rw [firstAxis_at hfa (by simpa using hk) (by simpa using hj)] at h1
        simpa using h1
  · rintro ⟨hF, hnd, hin, hrep, len, hlen, hfirst⟩
    have hl : ops.length = operands.length := hF.length_eq
    have hat : ∀ k (hk : k < ops.length) (hk' : k < operands.length), ops[k].length = operands[k].2.length := by
      intro k hk hk'
      exact (List.forall₂_iff_get.1 hF).2 k hk hk'
    have hfst : (npAxes (ops.zip (operands.map Prod.snd))).map Prod.fst = ops.flatten := by
      refine map_fst_npAxes (by simpa using hl) fun p hp => ?_
      obtain ⟨k, hk, rfl⟩ := List.mem_iff_getElem.1 hp
      simp only [List.length_zip, List.length_map] at hk
      simpa using hat k (by omega) (by omega)
    have hdim : npEinsumShape (ops.zip (operands.map Prod.snd)) out = out.map len :=
      List.map_congr_left fun ch hc => by
        obtain ⟨o, h1, h2⟩ := hin ch hc
        exact npDim_eq hlen h1 h2
    have hshape : computeEinsumShape (ops ++ [out]) (operands.map Prod.snd) =
        .ok (if out = [] then [1] else out.map len) := by
      unfold computeEinsumShape
      simp only [List.getLastD_concat, List.dropLast_concat]
      by_cases hn : out = []
      · rw [if_pos hn, if_pos hn]
      · rw [if_neg hn, if_neg hn]
        have : (out.mapM fun ch => firstAxis ch ops (operands.map Prod.snd)) = .ok (out.map fun ch => some (len ch)) := by
          refine mapM_of_forall₂ (List.forall₂_map_right_iff.2 (List.forall₂_same.2 fun ch hc => ?_))
          obtain ⟨k, j, hf⟩ := exists_firstAxis (hin ch hc)
          obtain ⟨⟨h1, h2, -⟩, -⟩ := id hf
          have h3 : k < operands.length := by omega
          have h4 := hat k h1 h3
          rw [firstAxis_at hf (by simpa using h3) (by simp only [List.getElem_map]; omega)]
          have := hfirst ch hc k j h3 (by omega) hf
          simpa using this
        rw [this]
        have hro : ∀ l : List Char, (l.map fun ch => some (len ch)).reduceOption = l.map len := by
          intro l
          induction l with
          | nil => rfl
          | cons x l ih => exact congrArg (len x :: ·) ih
        simp only [hro]
    have hok : NpEinsumOk (ops.zip (operands.map Prod.snd)) out := by
      refine ⟨?_, ?_, ?_, hnd, ?_⟩
      · rw [Ne, List.zip_eq_nil_iff, not_or]
        refine ⟨hne, fun h => hne ?_⟩
        have h0 : operands.length = 0 := by simpa using congrArg List.length h
        exact List.length_eq_zero_iff.1 (by omega)
      · intro p hp
        obtain ⟨k, hk, rfl⟩ := List.mem_iff_getElem.1 hp
        simp only [List.length_zip, List.length_map] at hk
        have h1 : k < ops.length := by omega
        have h2 : k < operands.length := by omega
        simp only [List.getElem_zip, List.getElem_map]
        refine ⟨hat k h1 h2, fun a haa b hbb hab => ?_⟩
        obtain ⟨i, hi, rfl⟩ := List.mem_iff_getElem.1 haa
        obtain ⟨j, hj, rfl⟩ := List.mem_iff_getElem.1 hbb
        simp only [List.length_zip] at hi hj
        simp only [List.getElem_zip] at hab ⊢
        exact hrep k h1 h2 i j (by omega) (by omega) (by omega) (by omega) hab
      · intro a haa
        obtain ⟨k, hk, hk', j, hj, hj', rfl⟩ := mem_npAxes_iff.1 haa
        simp only
        rw [npDim_eq hlen (List.getElem_mem hk) (List.getElem_mem hj)]
        simpa using hlen.axis k hk (by simpa using hk') j hj (by simpa using hj')
      · rw [hfst]
        exact fun ch hc => List.mem_flatten.2 (hin ch hc)
    unfold stdEinsum
    rw [if_neg hsub]
    simp only
    rw [einsumToList_subscripts hne ho hout, npParse_subscripts hne ho hout, hshape]
    simp only
    rw [if_neg (not_not.2 hl), if_neg (not_not.2 hok), if_neg]
    · exact ⟨_, rfl⟩
    · rw [hdim]
      rintro ⟨h1, h2⟩
      split at h1
      · rename_i hn
        rw [hn] at h1
        exact h1 rfl
      · exact h1 rfl

/-- The claim is false whenever the first axis with a label of the result is broadcast: nothing of the kind is accepted. -/
theorem c44_broadcast_refused {operands : List (String × List Nat)} {ops : List (List Char)} {out : List Char}
    (hne : ops ≠ []) (ho : ∀ o ∈ ops, Alpha o) (hout : Alpha out) (hpos : ∀ p ∈ operands, ∀ n ∈ p.2, 0 < n)
    {ch : Char} (hch : ch ∈ out) {k j : Nat} (hk : k < operands.length) (hj : j < operands[k].2.length)
    (hf : FirstAxis ops ch k j) (h1 : operands[k].2[j] = 1) {k' j' : Nat} (hk' : k' < operands.length)
    (hj' : j' < operands[k'].2.length) (hko : k' < ops.length) (hjo : j' < ops[k'].length) (hc' : ops[k'][j'] = ch)
    (h2 : operands[k'].2[j'] ≠ 1) : ∃ e, stdEinsum operands (subscripts ops out) = .error e := by
  cases hc : stdEinsum operands (subscripts ops out) with
  | error e => exact ⟨e, rfl⟩
  | ok c =>
    exfalso
    obtain ⟨-, -, -, -, len, hlen, hfirst⟩ := (c44_accepted_exactly hne ho hout hpos).1 ⟨c, hc⟩
    have h3 := hfirst ch hch k j hk hj hf
    have h4 := hlen.axis k' hko hk' j' hjo hj'
    rw [hc'] at h4
    omega

/-- `'ij,jk->ik'` with matrices of shapes (1, 3) and (3, 4) is accepted, `'i,i->i'` with vectors of lengths 1 and 2 is
not. -/
example : (∃ c, stdEinsum [("x", [1, 3]), ("y", [3, 4])] (subscripts ["ij".toList, "jk".toList] "ik".toList) = .ok c) ∧
    ∃ e, stdEinsum [("x", [1]), ("y", [2])] (subscripts [['i'], ['i']] ['i']) = .error e := by
  refine ⟨⟨_, rfl⟩, ?_⟩
  refine c44_broadcast_refused (by decide) (by decide) (by decide) (by decide) (ch := 'i') (by decide) (k := 0) (j := 0)
    (by decide) (by decide) ⟨⟨by decide, by decide, rfl, fun j' hj' => by omega⟩, fun k' _ hk' => by omega⟩ rfl
    (k' := 1) (j' := 0) (by decide) (by decide) (by decide) (by decide) rfl (by decide)

end OM
