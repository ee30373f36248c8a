import Verif.Props.Terms

/-! # einsum in programs -/

namespace OM
open Spec

/-! ## Lengths of labels -/

theorem foldr_max {l : List Nat} : (∀ n ∈ l, n ≤ l.foldr max 1) ∧ 1 ≤ l.foldr max 1 ∧
    (l.foldr max 1 ∈ l ∨ l.foldr max 1 = 1) := by
  induction l with
  | nil => simp
  | cons a l ih =>
    obtain ⟨h1, h2, h3⟩ := ih
    rw [List.foldr_cons]
    refine ⟨?_, by omega, ?_⟩
    · intro n hn
      rcases List.mem_cons.1 hn with rfl | hn
      · omega
      · have := h1 n hn; omega
    · rcases Nat.le_total a (l.foldr max 1) with h | h
      · rw [max_eq_right h]
        exact h3.imp (List.mem_cons_of_mem _) id
      · rw [max_eq_left h]
        simp

theorem firstAxis_lookup {ch : Char} {ops : List (List Char)} {shapes : List (List Nat)}
    (h : List.Forall₂ (fun o s => o.length = s.length) ops shapes) :
    firstAxis ch ops shapes = .ok ((npAxes (ops.zip shapes)).lookup ch) := by
  induction h with
  | nil => rfl
  | @cons S s ops shapes hl _ ih =>
    rw [firstAxis, List.zip_cons_cons, npAxes_cons, List.lookup_append]
    have key : ∀ (S : List Char) (s : List Nat), S.length = s.length →
        (S.zip s).lookup ch = if ch ∈ S then s[S.idxOf ch]? else none := by
      intro S
      induction S with
      | nil => simp
      | cons x S ih =>
        intro s hl
        match s, hl with
        | n :: s, hl =>
          rw [List.zip_cons_cons, List.lookup_cons]
          by_cases hx : ch = x
          · subst hx; simp
          · have hb : (ch == x) = false := by simpa using hx
            have hb' : (x == ch) = false := by simpa using fun e => hx (Eq.symm e)
            rw [hb, ih s (by simpa using hl)]
            simp [hx, List.idxOf_cons, hb']
    rw [key S s hl]
    by_cases hc : ch ∈ S
    · have hlt := List.idxOf_lt_length_of_mem hc
      rw [hl] at hlt
      simp [hc, hlt]
    · rw [if_neg hc, if_neg hc, List.tail_cons, ih]
      rfl

section
variable {name : Ref → String} {shape : Ref → List Nat} {as : List Ref} {labels : List (List Char)}
  {out : List Char}

theorem labelledAxes_eq : labelledAxes shape as labels =
    npAxes (labels.zip ((as.map fun u => (name u, shape u)).map Prod.snd)) := by
  unfold labelledAxes npAxes
  rw [List.map_map, List.zip_map_right, List.flatMap_map]
  rfl

theorem labelLength_pos (ch : Char) : 0 < labelLength shape as labels ch := foldr_max.2.1

theorem axis_le {x : Char × Nat} (h : x ∈ labelledAxes shape as labels) :
    x.2 ≤ labelLength shape as labels x.1 :=
  foldr_max.1 _ (List.mem_map_of_mem (List.mem_filter.2 ⟨h, by simp⟩))

theorem labelLength_mem (ch : Char) : (ch, labelLength shape as labels ch) ∈ labelledAxes shape as labels ∨
    labelLength shape as labels ch = 1 := by
  refine (foldr_max (l := ((labelledAxes shape as labels).filter fun x => x.1 = ch).map Prod.snd)).2.2.imp ?_ id
  intro h
  obtain ⟨x, hx, he⟩ := List.mem_map.1 h
  obtain ⟨h1, h2⟩ := List.mem_filter.1 hx
  have h2 : x.1 = ch := of_decide_eq_true h2
  have : x = (ch, labelLength shape as labels ch) := Prod.ext h2 he
  rwa [← this]

/-- If every axis has length one or that of its label, both definitions of the length agree. -/
theorem npDim_labelLength (hax : ∀ x ∈ labelledAxes shape as labels, x.2 = 1 ∨ x.2 = labelLength shape as labels x.1)
    (ch : Char) : npDim (labelledAxes shape as labels) ch = labelLength shape as labels ch := by
  unfold npDim
  cases hf : (((labelledAxes shape as labels).filter fun a => a.1 = ch).map Prod.snd).find? (· ≠ 1) with
  | none =>
    rcases labelLength_mem (shape := shape) (as := as) (labels := labels) ch with h | h
    · have := List.find?_eq_none.1 hf (labelLength shape as labels ch)
        (List.mem_map.2 ⟨_, List.mem_filter.2 ⟨h, by simp⟩, rfl⟩)
      simp at this
      simp [this]
    · simp [h]
  | some n =>
    have h1 := List.find?_some hf
    obtain ⟨x, hx, rfl⟩ := List.mem_map.1 (List.mem_of_find?_eq_some hf)
    obtain ⟨hx, h2⟩ := List.mem_filter.1 hx
    have h2 : x.1 = ch := of_decide_eq_true h2
    rcases hax x hx with h | h
    · simp [h] at h1
    · simp [h, h2]

theorem labelLength_npDim (hpos : ∀ x ∈ labelledAxes shape as labels, 0 < x.2)
    (hax : ∀ x ∈ labelledAxes shape as labels, x.2 = 1 ∨ x.2 = npDim (labelledAxes shape as labels) x.1) :
    ∀ x ∈ labelledAxes shape as labels, x.2 = 1 ∨ x.2 = labelLength shape as labels x.1 := by
  intro x hx
  rcases labelLength_mem (shape := shape) (as := as) (labels := labels) x.1 with h | h
  · rcases hax _ h with h1 | h1
    · have := axis_le hx
      have := hpos x hx
      simp only at h1
      omega
    · simp only at h1
      rw [h1]
      exact hax x hx
  · have := axis_le hx
    have := hpos x hx
    omega

theorem lengths_of (hl : List.Forall₂ (fun l a => l.length = (shape a).length) labels as)
    (hax : ∀ x ∈ labelledAxes shape as labels, x.2 = 1 ∨ x.2 = labelLength shape as labels x.1) :
    Lengths (as.map fun u => (name u, shape u)) labels (labelLength shape as labels) := by
  rw [labelledAxes_eq (name := name)] at hax
  have hlen := hl.length_eq
  refine ⟨?_, ?_, labelLength_pos⟩
  · intro k hk hk' j hj hj'
    exact hax (labels[k][j], ((as.map fun u => (name u, shape u))[k]).2[j])
      (mem_npAxes_iff.2 ⟨k, hk, by simpa using hk', j, hj, by simpa using hj', by simp⟩)
  · intro o ho ch hc
    rcases labelLength_mem (shape := shape) (as := as) (labels := labels) ch with h | h
    · rw [labelledAxes_eq (name := name)] at h
      obtain ⟨k, hk, hk', j, hj, hj', e⟩ := mem_npAxes_iff.1 h
      obtain ⟨e1, e2⟩ := Prod.ext_iff.1 e
      refine ⟨k, hk, by simpa using hk', j, hj, by simpa using hj', e1.symm, ?_⟩
      simpa using e2.symm
    · obtain ⟨k, hk, rfl⟩ := List.mem_iff_getElem.1 ho
      obtain ⟨j, hj, rfl⟩ := List.mem_iff_getElem.1 hc
      have hka : k < as.length := by omega
      have hlk : labels[k].length = (shape as[k]).length := List.forall₂_iff_get.1 hl |>.2 k hk hka
      refine ⟨k, hk, by simpa using hka, j, hj, by simp; omega, rfl, ?_⟩
      have := hax (labels[k][j], ((as.map fun u => (name u, shape u))[k]'(by simpa using hka)).2[j]'(by simp; omega))
        (mem_npAxes_iff.2 ⟨k, hk, by simpa using hka, j, hj, by simp; omega, by simp⟩)
      simp only at this
      rw [h] at this ⊢
      exact this.elim id id

/-! ## Which calls are accepted -/

/-- The operands that an einsum accepts. -/
structure EinsumFits (shape : Ref → List Nat) (as : List Ref) (labels : List (List Char)) (out : List Char) :
    Prop where
  /-- one label for each axis -/
  ranks : List.Forall₂ (fun l a => l.length = (shape a).length) labels as
  /-- axes with the same label have the same length, or are broadcast -/
  lengths : ∀ x ∈ labelledAxes shape as labels, x.2 = 1 ∨ x.2 = labelLength shape as labels x.1
  /-- in one operand they have the same length -/
  diagonal : ∀ p ∈ labels.zip as, ∀ x ∈ p.1.zip (shape p.2), ∀ y ∈ p.1.zip (shape p.2), x.1 = y.1 → x.2 = y.2
  nodup : out.Nodup
  /-- a label of the result occurs in an operand, and its first axis is not broadcast -/
  first : ∀ ch ∈ out, (labelledAxes shape as labels).lookup ch = some (labelLength shape as labels ch)

theorem mapM_firstAxis {ops : List (List Char)} {shapes : List (List Nat)}
    (h : List.Forall₂ (fun o s => o.length = s.length) ops shapes) (l : List Char) :
    (l.mapM fun ch => firstAxis ch ops shapes) = .ok (l.map fun ch => (npAxes (ops.zip shapes)).lookup ch) := by
  induction l with
  | nil => rfl
  | cons ch l ih =>
    rw [List.mapM_cons, ih, firstAxis_lookup h]
    rfl

theorem lookup_some_of_mem {ch : Char} {l : List (Char × Nat)} (h : ch ∈ l.map Prod.fst) :
    ∃ n, l.lookup ch = some n := by
  induction l with
  | nil => simp at h
  | cons x l ih =>
    rw [List.lookup_cons]
    by_cases hx : ch = x.1
    · exact ⟨x.2, by simp [hx]⟩
    · have hb : (ch == x.1) = false := by simpa using hx
      rw [hb]
      exact ih (by simpa [hx] using h)

theorem mem_of_lookup_axes {ch : Char} {n : Nat} {l : List (Char × Nat)} (h : l.lookup ch = some n) : (ch, n) ∈ l := by
  induction l with
  | nil => simp at h
  | cons x l ih =>
    rw [List.lookup_cons] at h
    by_cases hx : ch = x.1
    · rw [hx, beq_self_eq_true] at h
      simp only [Option.some.injEq] at h
      subst hx h
      simp
    · have hb : (ch == x.1) = false := by simpa using hx
      rw [hb] at h
      exact List.mem_cons_of_mem _ (ih h)

theorem ranks_shapes : List.Forall₂ (fun l a => l.length = (shape a).length) labels as ↔
    List.Forall₂ (fun (o : List Char) (s : List Nat) => o.length = s.length) labels
      ((as.map fun u => (name u, shape u)).map Prod.snd) := by
  rw [List.map_map, List.forall₂_map_right_iff]
  rfl

theorem labelledAxes_pos (hpos : ∀ a ∈ as, ∀ n ∈ shape a, 0 < n) : ∀ x ∈ labelledAxes shape as labels, 0 < x.2 := by
  intro x hx
  obtain ⟨p, hp, hx⟩ := List.mem_flatMap.1 hx
  exact hpos p.2 (List.of_mem_zip hp).2 _ (List.of_mem_zip hx).2

theorem Accepted.ranks' {c : Einsum} (h : Accepted (as.map fun u => (name u, shape u)) labels out c) :
    List.Forall₂ (fun l a => l.length = (shape a).length) labels as := by
  refine List.forall₂_iff_get.2 ⟨by simpa using h.len, fun k hk hk' => ?_⟩
  exact (h.ok.2.1 (labels[k], shape as[k])
    (List.mem_iff_getElem.2 ⟨k, by simp; omega, by simp⟩)).1

theorem Accepted.lengths' (hpos : ∀ a ∈ as, ∀ n ∈ shape a, 0 < n) {c : Einsum}
    (h : Accepted (as.map fun u => (name u, shape u)) labels out c) :
    ∀ x ∈ labelledAxes shape as labels, x.2 = 1 ∨ x.2 = labelLength shape as labels x.1 := by
  refine labelLength_npDim (labelledAxes_pos hpos) ?_
  rw [labelledAxes_eq (name := name)]
  exact h.ok.2.2.1

theorem Accepted.lengths_labels (hpos : ∀ a ∈ as, ∀ n ∈ shape a, 0 < n) {c : Einsum}
    (h : Accepted (as.map fun u => (name u, shape u)) labels out c) :
    Lengths (as.map fun u => (name u, shape u)) labels (labelLength shape as labels) :=
  lengths_of h.ranks' (h.lengths' hpos)

theorem reduceOption_some {l : List Char} {f : Char → Option Nat} (h : ∀ ch ∈ l, ∃ n, f ch = some n) :
    (l.map f).reduceOption = l.map fun ch => (f ch).getD 0 := by
  induction l with
  | nil => rfl
  | cons x l ih =>
    obtain ⟨n, hn⟩ := h x (by simp)
    have := ih fun ch hc => h ch (by simp [hc])
    simp only [List.map_cons, hn, Option.getD_some, ← this]
    rfl

theorem accepts_einsum (hne : labels ≠ []) (hl : ∀ o ∈ labels, Alpha o) (hout : Alpha out)
    (hpos : ∀ a ∈ as, ∀ n ∈ shape a, 0 < n) :
    (∃ c, stdEinsum (as.map fun u => (name u, shape u)) (subscripts labels out) = .ok c) ↔
      EinsumFits shape as labels out := by
  constructor
  · rintro ⟨c, hc⟩
    have ha := stdEinsum_ok hne hl hout hc
    have hlen := ha.lengths_labels hpos
    refine ⟨ha.ranks', ha.lengths' hpos, ?_, ha.ok.2.2.2.1, ?_⟩
    · intro p hp
      refine (ha.ok.2.1 (p.1, shape p.2) ?_).2
      rw [List.map_map, List.zip_map_right]
      exact List.mem_map.2 ⟨p, hp, rfl⟩
    · intro ch hch
      have hno : out ≠ [] := List.ne_nil_of_mem hch
      have h1 := c44_shape hne hl hout hlen hc
      rw [if_neg hno] at h1
      have h2 := ha.shape
      unfold computeEinsumShape at h2
      simp only [List.getLastD_concat, List.dropLast_concat] at h2
      rw [if_neg hno, mapM_firstAxis (ranks_shapes.1 ha.ranks'), h1] at h2
      simp only at h2
      have h3 := Except.ok.inj h2
      rw [reduceOption_some fun ch hc => lookup_some_of_mem (ha.ok.2.2.2.2 ch hc)] at h3
      have h4 := (List.map_inj_left.1 h3) ch hch
      obtain ⟨n, hn⟩ := lookup_some_of_mem (ha.ok.2.2.2.2 ch hch)
      rw [labelledAxes_eq (name := name), hn]
      rw [hn] at h4
      exact congrArg some h4
  · intro h
    have hlen := lengths_of (name := name) h.ranks h.lengths
    have hdim := npDim_labelLength h.lengths
    rw [labelledAxes_eq (name := name)] at hdim
    have hmem : ∀ ch ∈ out, ch ∈ (npAxes (labels.zip ((as.map fun u => (name u, shape u)).map Prod.snd))).map Prod.fst := by
      intro ch hc
      have := mem_of_lookup_axes (h.first ch hc)
      rw [labelledAxes_eq (name := name)] at this
      exact List.mem_map.2 ⟨_, this, rfl⟩
    have hL := h.ranks.length_eq
    have hok : NpEinsumOk (labels.zip ((as.map fun u => (name u, shape u)).map Prod.snd)) out := by
      refine ⟨?_, ?_, ?_, h.nodup, hmem⟩
      · rw [Ne, List.zip_eq_nil_iff, not_or]
        refine ⟨hne, fun h => hne ?_⟩
        simp only [List.map_eq_nil_iff] at h
        subst h
        simpa using hL
      · intro p hp
        rw [List.map_map, List.zip_map_right] at hp
        obtain ⟨q, hq, rfl⟩ := List.mem_map.1 hp
        obtain ⟨k, hk, rfl⟩ := List.mem_iff_getElem.1 hq
        simp only [List.length_zip] at hk
        refine ⟨?_, h.diagonal _ hq⟩
        simpa using List.forall₂_iff_get.1 h.ranks |>.2 k (by omega) (by omega)
      · have := h.lengths
        rw [labelledAxes_eq (name := name)] at this
        intro a ha
        rw [hdim]
        exact this a ha
    have hshape : computeEinsumShape (labels ++ [out]) ((as.map fun u => (name u, shape u)).map Prod.snd) =
        .ok (if out = [] then [1] else out.map (labelLength shape as labels)) := by
      unfold computeEinsumShape
      simp only [List.getLastD_concat, List.dropLast_concat]
      by_cases hn : out = []
      · rw [if_pos hn, if_pos hn]
      · rw [if_neg hn, if_neg hn, mapM_firstAxis (ranks_shapes.1 h.ranks)]
        simp only
        rw [reduceOption_some fun ch hc => lookup_some_of_mem (hmem ch hc)]
        refine congrArg _ (List.map_congr_left fun ch hc => ?_)
        have := h.first ch hc
        rw [labelledAxes_eq (name := name)] at this
        rw [this]
        rfl
    have hsub : subscripts labels out ≠ [] := by simp [subscripts, arrow]
    unfold stdEinsum
    rw [if_neg hsub]
    simp only
    rw [einsumToList_subscripts hne hl hout, npParse_subscripts hne hl hout, hshape]
    simp only
    rw [if_neg (by simpa using hL), if_neg (not_not.2 hok), if_neg]
    · exact ⟨_, rfl⟩
    · have : npEinsumShape (labels.zip ((as.map fun u => (name u, shape u)).map Prod.snd)) out =
          out.map (labelLength shape as labels) := List.map_congr_left fun ch _ => hdim ch
      rw [this]
      rintro ⟨h1, h2⟩
      split at h1
      · rename_i hn
        rw [hn] at h1
        exact h1 rfl
      · exact h1 rfl

/-! ## The component -/

theorem stdEinsum_names {operands : List (String × List Nat)} {s : List Char} {c : Einsum}
    (h : stdEinsum operands s = .ok c) : c.names = operands.map Prod.fst ∧ c.shapes = operands.map Prod.snd := by
  unfold stdEinsum at h
  split at h
  · cases h
  · simp only at h
    split at h
    · cases h
    · split at h
      · cases h
      · split_ifs at h
        cases h
        exact ⟨rfl, rfl⟩

theorem einsum_wired {s : List Char} {c : Einsum}
    (h : stdEinsum (as.map fun u => (name u, shape u)) s = .ok c)
    (sh : List Nat) (co : (String → Nat → ℝ) → Except PyErr (Nat → ℝ))
    (pa : (String → Nat → ℝ) → Except PyErr (String → Coo)) :
    Built.Wired ⟨c.ins, sh, co, pa⟩ name shape as := by
  obtain ⟨hn, hs⟩ := stdEinsum_names h
  have hlen : c.names.length = as.length := by simp [hn]
  have hat : ∀ i (hi : i < as.length), c.name i = name as[i] ∧ c.shapeAt i = shape as[i] := by
    intro i hi
    simp [Einsum.name, Einsum.shapeAt, hn, hs, List.getD_eq_getElem?_getD, hi]
  refine ⟨c.ins_nodup, fun p hp => ?_, fun u hu => ?_⟩
  · obtain ⟨f, hf, rfl⟩ := List.mem_map.1 hp
    have hlt := (c.mem_firsts.1 hf).1
    rw [hlen] at hlt
    refine ⟨as[f], List.getElem_mem hlt, ?_⟩
    unfold Einsum.sizeAt
    rw [(hat f hlt).1, (hat f hlt).2]
  · obtain ⟨i, hi, rfl⟩ := List.mem_iff_getElem.1 hu
    obtain ⟨h1, h2⟩ := c.first_of (k := i) (by rw [hlen]; exact hi)
    refine List.mem_map.2 ⟨_, List.mem_map.2 ⟨_, h1, rfl⟩, ?_⟩
    exact h2.trans (hat i hi).1

theorem survives_iff (hap : ∀ u ∈ as, ∀ v ∈ as, name u = name v → u = v) {a : Ref} (ha : a ∈ as) :
    Survives (as.map fun u => (name u, shape u)) labels out (name a) ↔ SharesLabels as labels out a := by
  constructor
  · rintro h p hp rfl
    obtain ⟨k, hk, rfl⟩ := List.mem_iff_getElem.1 hp
    simp only [List.length_zip] at hk
    have := h k (by simp; omega) (by omega) (by simp)
    simpa using this
  · intro h k hk hk' he
    simp only [List.length_map] at hk
    simp only [List.getElem_map] at he
    refine h (labels[k], as[k]) (List.mem_iff_getElem.2 ⟨k, by simp; omega, by simp⟩)
      (hap _ (List.getElem_mem hk) _ ha he)

theorem correct_einsum {val : Ref → Nat → ℝ} {inp : String → Nat → ℝ} {sparse : Bool}
    (hap : ∀ u ∈ as, ∀ v ∈ as, name u = name v → u = v) : (Term.einsum as labels out sparse).Correct name shape val inp := by
  intro B hB
  rw [Term.build] at hB
  obtain ⟨c, hc, -, rfl⟩ := builtOf_ok hB
  refine ⟨einsum_wired hc _ _ _, fun hd hin => ?_⟩
  obtain ⟨hne, hl, hout, hpos, hnew, hlet, hsp⟩ := hd
  change stdEinsum _ (subscripts labels out) = _ at hc
  have ha := stdEinsum_ok hne hl hout hc
  have hlen := ha.lengths_labels hpos
  have hsh := c44_shape hne hl hout hlen hc
  have hs : ∀ p ∈ as.map fun u => (name u, shape u), ∀ q ∈ as.map fun u => (name u, shape u), p.1 = q.1 → p.2 = q.2 := by
    intro p hp q hq he
    obtain ⟨u, hu, rfl⟩ := List.mem_map.1 hp
    obtain ⟨v, hv, rfl⟩ := List.mem_map.1 hq
    rw [hap u hu v hv he]
  have hlet' : ∀ p ∈ as.map fun u => (name u, shape u),
      p.2.length ≤ (alphabet.filter (· ∉ subscripts labels out)).length := by
    intro p hp
    obtain ⟨u, hu, rfl⟩ := List.mem_map.1 hp
    exact hlet u hu
  have hmapNodup : ∀ l : List Ref, (∀ a ∈ l, a ∈ as) → l.Nodup → (l.map name).Nodup := by
    intro l hl hd
    exact List.Nodup.map_on (fun u hu v hv he => hap u (hl u hu) v (hl v hv) he) hd
  obtain ⟨P, hP, hex⟩ : ∃ P, (if sparse then c.sparsePartials else c.densePartials) inp = .ok P ∧
      ExactPartials c.ins (prodShape c.shape) c.compute P inp := by
    cases sparse with
    | false =>
      refine c45_dense_partial hne hl hout hs ?_ hlet' hc inp
      obtain ⟨d, r, e, h1, h2⟩ := hnew
      refine ⟨d.map name, r.map name, ?_, hmapNodup d (fun a ha => by rw [e]; simp [ha]) h1, ?_⟩
      · rw [List.map_map, e, List.map_append]; rfl
      · intro x hx
        obtain ⟨u, hu, rfl⟩ := List.mem_map.1 hx
        exact List.mem_map_of_mem (h2 u hu)
    | true =>
      obtain ⟨hnb, first, last, rest, e, h1, h2, h3, h4⟩ := hsp rfl
      have hf : ∀ a ∈ first, a ∈ as := fun a ha => by rw [e]; simp [ha]
      have hla : ∀ a ∈ last, a ∈ as := fun a ha => by rw [e]; simp [ha]
      refine c45_sparse_partial hne hl hout hs hlet' hlen ?_ (sparse := first.map name) (dense := last.map name)
        (rest := rest.map name) ?_ ?_ ?_ ?_ ?_ hc inp
      · intro k hk hk' j hj hj'
        rw [labelledAxes_eq (name := name)] at hnb
        exact hnb (labels[k][j], ((as.map fun u => (name u, shape u))[k]).2[j])
          (mem_npAxes_iff.2 ⟨k, hk, by simpa using hk', j, hj, by simpa using hj', by simp⟩)
      · rw [List.map_map, e, List.map_append, List.map_append]; rfl
      · rw [← List.map_append]
        exact hmapNodup _ (fun a ha => (List.mem_append.1 ha).elim (hf a) (hla a)) h1
      · intro x hx
        obtain ⟨u, hu, rfl⟩ := List.mem_map.1 hx
        rw [← List.map_append]
        exact List.mem_map_of_mem (h2 u hu)
      · intro x hx
        obtain ⟨u, hu, rfl⟩ := List.mem_map.1 hx
        exact (survives_iff hap (hf u hu)).2 (h3 u hu)
      · intro x hx
        obtain ⟨u, hu, rfl⟩ := List.mem_map.1 hx
        exact fun h => h4 u hu ((survives_iff hap (hla u hu)).1 h)
  refine ⟨hsh, ⟨_, rfl, fun idx hidx => ?_⟩, ⟨P, hP⟩, ?_⟩
  · have hval : ∀ o, InBounds (out.map (labelLength shape as labels)) o → idx.take out.length = o →
        c.compute inp (ravel (out.map (labelLength shape as labels)) o) =
          (Term.einsum as labels out sparse).entry shape val idx := by
      rintro o ho rfl
      rw [c44_value hne hl hout hlen hc inp ho]
      simp only [Term.entry]
      refine congrArg List.sum (List.map_congr_left fun q _ => congrArg List.prod ?_)
      rw [List.zipWith_map_left]
      apply List.ext_getElem (by simp)
      intro k h1 h2
      have hk : k < as.length := by
        simp only [List.length_zipWith] at h1
        omega
      simp only [List.getElem_zipWith, factor, entryAt]
      rw [hin as[k] (show as[k] ∈ as from List.getElem_mem _)]
    by_cases hn : out = []
    · have hidx' : InBounds [1] idx := by simpa [Term.outShape, hn] using hidx
      have hi : idx = [0] := by
        match idx, hidx' with
        | [i], h =>
          obtain ⟨h1, -⟩ := h
          have : i = 0 := by omega
          rw [this]
      have := hval [] (by simp [hn, InBounds]) (by simp [hn])
      rw [← this]
      simp [Term.outShape, hn, hi, ravel]
    · have hidx' : InBounds (out.map (labelLength shape as labels)) idx := by
        simpa [Term.outShape, hn] using hidx
      have hle := inBounds_length hidx'
      rw [List.length_map] at hle
      have := hval idx hidx' (by rw [← hle, List.take_length])
      rw [← this]
      simp [Term.outShape, hn]
  · show ExactPartials c.ins (prodShape c.shape) _ (Built.coo _ inp) inp
    unfold Built.coo
    simp only [hP]
    exact hex

end

end OM
