import Verif.Props.TermsArray
import Verif.Props.TermsEinsum

/-! # The component built for a call computes what the call means: vector products, axes, extrema, norms -/

namespace OM
open Spec

theorem set_append {i j : List Nat} (m p : Nat) : (i ++ m :: j).set i.length p = i ++ p :: j := by
  induction i with
  | nil => rfl
  | cons x i ih => simp

theorem logSumExp_ks {lower : Bool} {rho : ℝ} (hr : 0 < rho) (m : ℝ) {l : List ℝ} (hl : l ≠ []) :
    signed lower (ks rho m (l.map (signed lower))) = logSumExp lower rho l := by
  have hne : l.map (signed lower) ≠ [] := by simpa using hl
  rw [ks_shift hr.ne' m hne, List.map_map]
  unfold logSumExp signed
  cases lower with
  | false =>
    simp only [Bool.false_eq_true, if_false, Function.comp_def]
    ring
  | true =>
    simp only [if_true, Function.comp_def, mul_neg]
    ring

section
variable (name : Ref → String) (shape : Ref → List Nat) (val : Ref → Nat → ℝ) (inp : String → Nat → ℝ)

theorem wired1 {n0 : String} {a : Ref} {s0 : Nat} (h0 : n0 = name a) (e0 : s0 = prodShape (shape a))
    (s : List Nat) (f : (String → Nat → ℝ) → Except PyErr (Nat → ℝ))
    (p : (String → Nat → ℝ) → Except PyErr (String → Coo)) :
    (⟨[(n0, s0)], s, f, p⟩ : Built).Wired name shape [a] := by
  subst h0 e0
  exact ⟨by simp, by simp, by simp⟩

theorem correct_cross (a b : Ref) (axis : Int) : (Term.cross a b axis).Correct name shape val inp := by
  intro B hB
  rw [Term.build] at hB
  obtain ⟨c, hc, hset, rfl⟩ := builtOf_ok hB
  obtain ⟨⟨pre, post, hs, hst, hax, hv⟩, hex⟩ := c39_cross_partial hc hset inp
  have hnames : c.n0 = name a ∧ c.n1 = name b ∧ c.shape = shape a := by
    obtain ⟨-, -, k, -, ⟨-, rfl⟩ | ⟨-, -, -, rfl⟩⟩ := stdCross_iff.1 hc <;> exact ⟨rfl, rfl, rfl⟩
  refine ⟨wired2 name shape hset hnames.1 hnames.2.1 (by rw [Cross.size, hnames.2.2])
    (by rw [Cross.size, hnames.2.2, hst]) _ _ _, fun hd hin => ?_⟩
  have ha : inp (name a) = val a := hin a (by simp [Term.refs])
  have hb : inp (name b) = val b := hin b (by simp [Term.refs])
  refine good_of hnames.2.2 (fun idx hidx => ?_) (hex hd)
  have hidx' : InBounds (pre ++ 3 :: post) idx := by rw [← hs]; exact hidx
  obtain ⟨i, j', rfl, hi, hj'⟩ := inBounds_append_iff hidx'
  cases hj' with
  | cons hm hj =>
    rename_i m j
    have hv' := hv i j hi hj _ _ _ rfl rfl rfl
    simp only [ha, hb] at hv'
    obtain ⟨h0, h1, h2, -, -⟩ := hv'
    have hk : axisOf (shape a).length axis = i.length := by
      rw [inBounds_length hi]
      have := congrArg List.length hs
      simp only [List.length_append, List.length_cons] at this
      unfold axisOf
      split <;> omega
    have hget : (i ++ m :: j).getD i.length 0 = m := by simp
    simp only [Term.entry, hk, hget, set_append, entryAt]
    rw [hst]
    show c.compute inp (ravel (shape a) (i ++ m :: j)) = _
    match m, hm with
    | 0, _ => exact h0
    | 1, _ => exact h1
    | 2, _ => exact h2

theorem correct_rotmat (a : Ref) (axis : String) : (Term.rotmat a axis).Correct name shape val inp := by
  intro B hB
  rw [Term.build] at hB
  obtain ⟨c, hc, -, rfl⟩ := builtOf_ok hB
  obtain ⟨ho, -, hv⟩ := c40_value hc inp
  have hex := c40_exact hc inp
  have hnames : c.name = name a ∧ c.shape = shape a := by
    unfold stdRotmat at hc
    split at hc <;> cases hc
    exact ⟨rfl, rfl⟩
  refine ⟨wired1 name shape hnames.1 (by rw [Rotmat.size, hnames.2]) _ _ _, fun _ hin => ?_⟩
  have ha : inp (name a) = val a := hin a (by simp [Term.refs])
  have ho' : (Term.rotmat a axis).outShape shape = c.outShape := by rw [ho]; rfl
  rw [ho']
  refine good_of rfl (fun idx hidx => ?_) hex
  have key : ∀ k < prodShape (shape a), ∀ i < 3, ∀ j < 3, c.compute inp (9 * k + 3 * i + j) =
      rotation axis (val a k) (Fin.ofNat 3 i) (Fin.ofNat 3 j) := by
    intro k hk i hi j hj
    have := hv k hk (Fin.ofNat 3 i) (Fin.ofNat 3 j)
    simp only [Fin.ofNat, Nat.mod_eq_of_lt hi, Nat.mod_eq_of_lt hj, ha] at this ⊢
    exact this
  rw [ho] at hidx ⊢
  by_cases h1 : shape a = [1]
  · rw [if_pos h1] at hidx ⊢
    obtain ⟨i, j, rfl, hi, hj⟩ := inBounds_two hidx
    have := key 0 (by rw [h1]; decide) i hi j hj
    simp only [Term.entry, if_pos h1]
    rw [show ravel [3, 3] [i, j] = 9 * 0 + 3 * i + j by simp [ravel, prodShape]; ring, this]
    rfl
  · rw [if_neg h1] at hidx ⊢
    obtain ⟨q, ij, rfl, hq, hij⟩ := inBounds_append_iff hidx
    obtain ⟨i, j, rfl, hi, hj⟩ := inBounds_two hij
    have := key (ravel (shape a) q) (ravel_lt hq) i hi j hj
    rw [ravel_append hq, show ravel (shape a) q * prodShape [3, 3] + ravel [3, 3] [i, j] =
      9 * ravel (shape a) q + 3 * i + j by simp [ravel, prodShape]; ring, this]
    simp [Term.entry, if_neg h1, entryAt]

theorem correct_transpose (a : Ref) : (Term.transpose a).Correct name shape val inp := by
  intro B hB
  rw [Term.build] at hB
  obtain ⟨c, hc, -, rfl⟩ := builtOf_ok hB
  cases hc
  obtain ⟨ho, hv, hex, -⟩ := c42_transpose (name a) "" (shape a) inp
  refine ⟨wired1 name shape rfl rfl _ _ _, fun _ hin => ?_⟩
  have ha : inp (name a) = val a := hin a (by simp [Term.refs])
  refine good_of ho (fun idx hidx => ?_) hex
  have hr : InBounds (shape a) idx.reverse := by
    have : InBounds (shape a).reverse idx := hidx
    unfold InBounds at this ⊢
    rw [← List.forall₂_reverse_iff]
    simpa using this
  have := hv _ hr
  rw [List.reverse_reverse] at this
  rw [show (Term.transpose a).outShape shape = (shape a).reverse from rfl, this, ha]
  rfl

omit name shape val inp in
theorem reorder_perm {n : String} {s : List Nat} {lhs rhs : List Char} (hl : Letters lhs) (hr : Letters rhs)
    {c : Reorder} (hc : stdReorder n s (arrow lhs rhs) = .ok c) (hlen : lhs.length = s.length) :
    rhs.Perm lhs ∧ lhs.Nodup := by
  obtain ⟨-, hm, hp⟩ := stdReorder_ok hl hr hc
  have hnd : rhs.Nodup := List.Nodup.of_map _ hp.nodup
  have hlen' : rhs.length = lhs.length := by rw [hlen]; simpa using hp.len
  have hperm : rhs.Perm lhs := (hnd.subperm hm).perm_of_length_le hlen'.ge
  exact ⟨hperm, hperm.nodup_iff.1 hnd⟩

omit name shape val inp in
theorem reorder_back {n : String} {s : List Nat} {lhs rhs : List Char} (hl : Letters lhs) (hr : Letters rhs)
    {c : Reorder} (hc : stdReorder n s (arrow lhs rhs) = .ok c) (hlen : lhs.length = s.length)
    {idx : List Nat} (hi : InBounds s idx) :
    (lhs.map fun ch => (rhs.map fun ch => idx.getD (lhs.idxOf ch) 0).getD (rhs.idxOf ch) 0) = idx := by
  obtain ⟨hperm, hnd⟩ := reorder_perm hl hr hc hlen
  have hil : idx.length = lhs.length := by rw [inBounds_length hi, hlen]
  refine List.ext_getElem (by simp [hil]) fun k h1 h2 => ?_
  have hk : k < lhs.length := by simpa using h1
  have hmem : lhs[k] ∈ rhs := hperm.mem_iff.2 (List.getElem_mem hk)
  have hix : rhs.idxOf lhs[k] < rhs.length := List.idxOf_lt_length_iff.2 hmem
  rw [List.getElem_map, List.getD_eq_getElem _ _ (by simpa using hix), List.getElem_map, List.getElem_idxOf,
    hnd.idxOf_getElem, List.getD_eq_getElem _ _ h2]

omit name shape val inp in
theorem reorder_source {n : String} {s : List Nat} {lhs rhs : List Char} (hl : Letters lhs) (hr : Letters rhs)
    {c : Reorder} (hc : stdReorder n s (arrow lhs rhs) = .ok c) (hlen : lhs.length = s.length)
    {idx : List Nat} (hi : InBounds (rhs.map fun ch => s.getD (lhs.idxOf ch) 0) idx) :
    ∃ idx0, InBounds s idx0 ∧ (rhs.map fun ch => idx0.getD (lhs.idxOf ch) 0) = idx := by
  obtain ⟨rfl, hm, hp⟩ := stdReorder_ok hl hr hc
  have ho : (rhs.map fun ch => s.getD (lhs.idxOf ch) 0) = (rhs.map lhs.idxOf).map fun k => s.getD k 0 :=
    map_idxOf_getD.symm
  rw [ho] at hi
  have hlt := ravel_lt hi
  rw [prodShape_axisPerm hp] at hlt
  obtain ⟨idx0, hb, he⟩ := axisPerm_surj hp hlt
  refine ⟨idx0, hb, ?_⟩
  rw [← map_idxOf_getD]
  have h2 := unravel_ravel hi
  rw [he, unravel_ravel (inBounds_axisPerm hp hb)] at h2
  exact h2

theorem correct_reorder (a : Ref) (lhs rhs : List Char) : (Term.reorder a lhs rhs).Correct name shape val inp := by
  intro B hB
  rw [Term.build] at hB
  obtain ⟨c, hc, -, rfl⟩ := builtOf_ok hB
  have hnames : c.name = name a ∧ c.shape = shape a := by
    unfold stdReorder at hc
    split at hc
    · cases hc
    split at hc
    · cases hc
    split at hc
    · cases hc
    · cases hc; exact ⟨rfl, rfl⟩
  refine ⟨wired1 name shape hnames.1 (by rw [Reorder.size, hnames.2]) _ _ _, fun hd hin => ?_⟩
  obtain ⟨hl, hr, hlen⟩ := hd
  have ha : inp (name a) = val a := hin a (by simp [Term.refs])
  obtain ⟨ho, hsz, hv, hex⟩ := c42_reorder hl hr hc
  refine good_of ho (fun idx hidx => ?_) (by
    have := hex inp
    rw [← hsz, ho] at this
    rw [Reorder.ins, Reorder.size, hnames.1, hnames.2, ← hsz, ho]
    exact this)
  have hidx : InBounds (rhs.map fun ch => (shape a).getD (lhs.idxOf ch) 0) idx := hidx
  obtain ⟨idx0, hb0, rfl⟩ := reorder_source hl hr hc hlen hidx
  have := (hv inp idx0 hb0).2
  rw [ho] at this
  show c.compute inp (ravel (rhs.map fun ch => (shape a).getD (lhs.idxOf ch) 0) _) = _
  rw [this, ha]
  simp only [Term.entry, entryAt]
  rw [reorder_back hl hr hc hlen hb0]

theorem correct_reshape (a : Ref) (s : List Nat) : (Term.reshape a s).Correct name shape val inp := by
  intro B hB
  rw [Term.build] at hB
  obtain ⟨c, hc, -, rfl⟩ := builtOf_ok hB
  have hsz : prodShape s = prodShape (shape a) := by
    by_contra hne
    rw [(c43_reshape (name a) "" (shape a) s).1 hne] at hc
    cases hc
  obtain ⟨c', _, hc', -, hv, -, hex⟩ := (c43_reshape (name a) "" (shape a) s).2 hsz
  rw [hc'] at hc
  cases hc
  have hnames : c = ⟨name a, shape a, s⟩ := by
    unfold stdReshape at hc'
    rw [if_pos hsz] at hc'
    cases hc'
    rfl
  refine ⟨wired1 name shape (by rw [hnames]) (by rw [hnames]) _ _ _, fun _ hin => ?_⟩
  have ha : inp (name a) = val a := hin a (by simp [Term.refs])
  refine good_of (by rw [hnames]; rfl) (fun idx hidx => ?_) (by
    have := hex inp
    rw [hnames] at this ⊢
    exact this)
  have := (hv inp (ravel s idx) (ravel_lt hidx)).1
  rw [ha] at this
  exact this

theorem correct_expand (a : Ref) (s : List Nat) (indices : Option (List Char × List Char)) :
    (Term.expand a s indices).Correct name shape val inp := by
  intro B hB
  rw [Term.build] at hB
  obtain ⟨c, hc, -, rfl⟩ := builtOf_ok hB
  have hnames : c.name = name a ∧ c.inShape = shape a ∧ c.shape = s ∧ (c.scalar = true ↔ shape a = [1]) := by
    unfold stdExpand at hc
    split at hc
    · split at hc
      · rename_i h1
        cases hc
        simp [h1]
      · cases hc
    · split at hc
      · split at hc
        · rename_i h1
          cases hc
          simp [h1]
        · rename_i h1
          split at hc
          · cases hc
          · split at hc
            · cases hc
            · cases hc
              simp [h1]
      · cases hc
  obtain ⟨n1, n2, n3, n4⟩ := hnames
  have hsize : (if c.scalar then 1 else prodShape c.inShape) = prodShape (shape a) := by
    split
    · rename_i h1
      rw [n4.1 h1]; rfl
    · rw [n2]
  refine ⟨wired1 name shape n1 hsize _ _ _, fun hd hin => ?_⟩
  have ha : inp (name a) = val a := hin a (by simp [Term.refs])
  have hex := c41_exact hc inp
  refine good_of n3 (fun idx hidx => ?_) (by
    rw [Expand.ins, n1, hsize]
    exact hex)
  have hidx : InBounds s idx := hidx
  show c.compute inp (ravel s idx) = _
  have hscalar : shape a = [1] → c.compute inp (ravel s idx) = val a 0 := by
    intro h1
    simp [Expand.compute, Expand.col, n4.2 h1, n1, ha]
  cases indices with
  | none =>
    have h1 : shape a = [1] := by
      unfold stdExpand at hc
      simp only [Option.map_none] at hc
      split at hc
      · assumption
      · cases hc
    rw [hscalar h1]
    rfl
  | some p =>
    obtain ⟨lhs, rhs⟩ := p
    by_cases h1 : shape a = [1]
    · rw [hscalar h1]
      simp [Term.entry, h1]
    · rcases hd with hd | ⟨hl, hr, hnd, hlen, hsub⟩
      · exact absurd hd h1
      · rw [(c41_value_partial hl hr hnd hlen h1 hsub hc).2 inp idx hidx, ha]
        simp [Term.entry, h1, entryAt]

omit name shape val inp in
theorem fibre_ne {c : Ks} (hp : ∀ n ∈ c.shape, 0 < n) (inp : String → Nat → ℝ) {j : List Nat}
    (hj : InBounds c.outShape j) : c.values inp j ≠ [] := by
  rw [← ks_group_map inp hj]
  simpa using ks_group_ne hp (ravel_lt hj)

omit shape val in
theorem ks_value {c : Ks} (hp : ∀ n ∈ c.shape, 0 < n) (hr : 0 < c.rho) {j : List Nat}
    (hj : InBounds c.outShape j) :
    c.result inp (ravel c.outShape j) = logSumExp c.lower c.rho (c.values inp j) := by
  rw [ks_result, ← logSumExp_ks hr (c.gmax inp (ravel c.outShape j)) (fibre_ne hp inp hj),
    ← ks_group_map inp hj, List.map_map]
  rfl

theorem ks_good {c : Ks} {a : Ref} {axis : Option Int} {lower : Bool} {rho : ℝ} (hc : c.name = name a ∧ c.shape = shape a)
    (hrho : c.rho = rho)
    (hd : (Term.extremum lower [a] axis rho).Defined shape val)
    (ho : c.outShape = (Term.extremum lower [a] axis rho).outShape shape)
    (hv : ∀ idx, logSumExp c.lower c.rho (c.values inp idx) = (Term.extremum lower [a] axis rho).entry shape val idx) :
    (builtStateful c.comp [(c.name, c.size)] c.outShape).Good
      ((Term.extremum lower [a] axis rho).outShape shape) ((Term.extremum lower [a] axis rho).entry shape val) inp := by
  obtain ⟨hr, hpos⟩ := hd
  have hp : ∀ n ∈ c.shape, 0 < n := by rw [hc.2]; exact hpos a (by simp)
  rw [← hrho] at hr
  obtain ⟨P, hP, hex⟩ := c33_reduction_partial hp hr (h := [.compute inp]) (inp := inp) rfl
  refine ⟨ho, ⟨_, rfl, fun idx hidx => ?_⟩, ⟨P, hP⟩, ?_⟩
  · rw [← hv, ← ho]
    rw [← ho] at hidx
    exact ks_value inp hp hr hidx
  · show ExactPartials _ _ _ (Built.coo _ _) _
    unfold Built.coo
    simp only [builtStateful, hP]
    exact hex

theorem correct_extremum (lower : Bool) (as : List Ref) (axis : Option Int) (rho : ℝ) :
    (Term.extremum lower as axis rho).Correct name shape val inp := by
  intro B hB
  rw [Term.build] at hB
  obtain ⟨c, hc, hset, rfl⟩ := builtOf_ok hB
  match as, axis with
  | [], axis =>
    obtain ⟨e, he⟩ := (c31_refused lower rho (n := "") (m := "") (shape := []) (shape' := [])).1 axis
    rw [List.map_nil, he] at hc
    cases hc
  | [a], none =>
    simp only [List.map_cons, List.map_nil, stdExtremum] at hc
    cases hc
    refine ⟨wired1 name shape rfl rfl _ _ _, fun hd hin => ?_⟩
    have ha : inp (name a) = val a := hin a (by simp [Term.refs])
    refine ks_good name shape val inp ⟨rfl, rfl⟩ rfl hd rfl fun idx => ?_
    simp [Ks.values, Term.entry, allEntries, ha, Ks.size]
  | [a], some ax =>
    simp only [List.map_cons, List.map_nil, stdExtremum] at hc
    split at hc
    · cases hc
    rename_i k hk
    cases hc
    have hax := axisOf_names (normAxis_iff.1 hk)
    refine ⟨wired1 name shape rfl rfl _ _ _, fun hd hin => ?_⟩
    have ha : inp (name a) = val a := hin a (by simp [Term.refs])
    refine ks_good name shape val inp ⟨rfl, rfl⟩ rfl hd ?_ fun idx => ?_
    · simp [Ks.outShape, Term.outShape, hax, npDelete_single]
    · simp [Ks.values, Term.entry, entriesOver, axesOf, hax, ha]
  | a :: b :: l, some ax =>
    obtain ⟨e, he⟩ := (c31_refused lower rho (n := name a) (m := name b) (shape := shape a) (shape' := shape b)).2.1 ax
      (l.map fun u => (name u, shape u))
    rw [List.map_cons, List.map_cons, he] at hc
    cases hc
  | a :: b :: l, none =>
    have hs : ∀ u ∈ a :: b :: l, shape u = shape a := by
      by_contra hne
      push Not at hne
      obtain ⟨u, hu, hne⟩ := hne
      obtain ⟨e, he⟩ := (c31_refused lower rho (n := "") (m := "") (shape := []) (shape' := [])).2.2.1
        ((a :: b :: l).map fun u => (name u, shape u))
        ⟨_, List.mem_map.2 ⟨u, hu, rfl⟩, _, List.mem_map.2 ⟨a, by simp, rfl⟩, hne⟩ none
      rw [he] at hc
      cases hc
    have hb := hs b (by simp)
    have hf := (c31_forms lower rho (n := name a) (m := name b) (shape := shape a)).1
      (l.map fun u => (name u, shape u)) (by
        intro p hp
        obtain ⟨u, hu, rfl⟩ := List.mem_map.1 hp
        exact hs u (by simp [hu]))
    rw [List.map_cons, List.map_cons, hb, hf] at hc
    cases hc
    have hnames : (name a :: name b :: (l.map fun u => (name u, shape u)).map Prod.fst) = (a :: b :: l).map name := by
      simp [List.map_map, Function.comp_def]
    rw [hnames] at hset ⊢
    have hnd : ((a :: b :: l).map name).Nodup := by
      simp only [Elem.setup] at hset
      split at hset
      · assumption
      · cases hset
    refine ⟨⟨?_, ?_, fun u hu => ?_⟩, fun hd hin => ?_⟩
    · simp only [Elem.ins, List.map_map]
      exact hnd
    · intro q hq
      simp only [Elem.ins, List.mem_map] at hq
      obtain ⟨n, ⟨u, hu, rfl⟩, rfl⟩ := hq
      exact ⟨u, hu, by rw [hs u hu]⟩
    · have hu : u ∈ a :: b :: l := hu
      have := List.mem_map_of_mem (f := name) hu
      simp only [Elem.ins, List.map_map, Function.comp_def, List.map_id']
      exact this
    · obtain ⟨hr, -⟩ := hd
      obtain ⟨hex, -⟩ := c32_elementwise (c := ⟨(a :: b :: l).map name, prodShape (shape a), rho, lower⟩)
        hset (by simp) hr inp
      refine good_of rfl (fun idx hidx => ?_) hex
      rw [elem_compute]
      have : (((a :: b :: l).map name).map fun n => signed lower
          (inp n (ravel ((Term.extremum lower (a :: b :: l) none rho).outShape shape) idx))) =
          ((a :: b :: l).map fun u => entryAt shape val u idx).map (signed lower) := by
        rw [List.map_map, List.map_map]
        apply List.map_congr_left
        intro u hu
        simp only [Function.comp, entryAt, Term.outShape]
        rw [hin u hu, hs u hu]
      rw [this, logSumExp_ks hr _ (by simp)]
      rfl

theorem correct_pnorm (a : Ref) (p : Int) (axes : Option (List Int)) :
    (Term.pnorm a p axes).Correct name shape val inp := by
  intro B hB
  rw [Term.build] at hB
  obtain ⟨c, hc, -, rfl⟩ := builtOf_ok hB
  obtain ⟨n1, n2, n3, he, h0, hnone, hsome⟩ := c34_arguments hc
  have ho : c.outShape = (Term.pnorm a p axes).outShape shape := by
    unfold Pnorm.outShape
    cases axes with
    | none => rw [hnone rfl]; rfl
    | some ax =>
      obtain ⟨l, hl, hcl⟩ := hsome ax rfl
      rw [hcl, n2]
      simp [Term.outShape, axesOf_names hl]
  refine ⟨wired1 name shape n1 (by rw [Pnorm.size, n2]) _ _ _, fun hd hin => ?_⟩
  have ha : inp (name a) = val a := hin a (by simp [Term.refs])
  have hp : c.p = p.toNat := by omega
  have hval : ∀ idx, InBounds ((Term.pnorm a p axes).outShape shape) idx →
      c.result inp (ravel ((Term.pnorm a p axes).outShape shape) idx) =
        (Term.pnorm a p axes).entry shape val idx := by
    intro idx hidx
    rw [← ho] at hidx ⊢
    rw [c34_value he inp hidx, hp]
    cases axes with
    | none => simp [Term.entry, Pnorm.values, hnone rfl, allEntries, Pnorm.size, n2, n1, ha]
    | some ax =>
      obtain ⟨l, hl, hcl⟩ := hsome ax rfl
      simp [Term.entry, Pnorm.values, hcl, n2, n1, ha, entriesOver, axesOf_names hl]
  obtain ⟨P, hP, hex⟩ := c33_pnorm_partial (c := c) he h0 (h := [.compute inp]) (inp := inp) (by
    intro r hr
    rw [ho] at hr
    have := hval _ (unravel_inBounds hr)
    rw [ravel_unravel hr] at this
    rw [this]
    exact hd _ (unravel_inBounds hr)) rfl
  refine ⟨ho, ⟨_, rfl, hval⟩, ⟨P, hP⟩, ?_⟩
  show ExactPartials _ _ _ (Built.coo _ _) _
  unfold Built.coo
  simp only [builtStateful, hP]
  exact hex

/-- Operands of an einsum with the same name are the same object: not two objects declared as inputs under one name.
(Most other calls do not accept two operands with one name.) -/
def Term.Apart : Term → Prop
  | .einsum as _ _ _ => ∀ u ∈ as, ∀ v ∈ as, name u = name v → u = v
  | _ => True

/-- **C69**, one call: if the component can be set up, its inputs are the operands, and where the call is defined it
computes the result of the call, without an exception, and its partials are exact. -/
theorem c69_term (c : Term) (B : Built) (hB : c.build name shape = .ok B) : B.Wired name shape c.refs ∧
    (c.Apart name → c.Defined shape val → (∀ u ∈ c.refs, inp (name u) = val u) →
      B.Good (c.outShape shape) (c.entry shape val) inp) := by
  have : c.Apart name → c.Correct name shape val inp := by
    intro ha
    cases c with
    | add a b => exact correct_add name shape val inp a b
    | sub a b => exact correct_sub name shape val inp a b
    | mul a b => exact correct_mul name shape val inp a b
    | div a b => exact correct_div name shape val inp a b
    | pow a p => exact correct_pow name shape val inp a p
    | neg a => exact correct_neg name shape val inp a
    | unary f a => exact correct_unary name shape val inp f a
    | sum as axes => exact correct_sum name shape val inp as axes
    | average as axes => exact correct_average name shape val inp as axes
    | matmat a b => exact correct_matmat name shape val inp a b
    | matvec a b => exact correct_matvec name shape val inp a b
    | outer a b => exact correct_outer name shape val inp a b
    | dot a b axis => exact correct_dot name shape val inp a b axis
    | inner a b axes => exact correct_inner name shape val inp a b axes
    | cross a b axis => exact correct_cross name shape val inp a b axis
    | rotmat a axis => exact correct_rotmat name shape val inp a axis
    | transpose a => exact correct_transpose name shape val inp a
    | reorder a lhs rhs => exact correct_reorder name shape val inp a lhs rhs
    | reshape a s => exact correct_reshape name shape val inp a s
    | expand a s indices => exact correct_expand name shape val inp a s indices
    | extremum lower as axis rho => exact correct_extremum name shape val inp lower as axis rho
    | pnorm a p axes => exact correct_pnorm name shape val inp a p axes
    | einsum as labels out sparse => exact correct_einsum ha
  refine ⟨?_, fun ha => (this ha B hB).2⟩
  cases c with
  | einsum as labels out sparse =>
    rw [Term.build] at hB
    obtain ⟨c, hc, -, rfl⟩ := builtOf_ok hB
    exact einsum_wired hc _ _ _
  | _ => exact (this trivial B hB).1

end

end OM
