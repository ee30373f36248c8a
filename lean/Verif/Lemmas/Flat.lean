import Verif.Props.Compiled
import Verif.Model.Nested

/-! # Lists of components that are run in order -/

namespace OM
open Spec

/-- The names a component reads. -/
abbrev rd (c : List (String × Built)) : List String := (insOf c).map Prod.fst

/-- The names a component writes. -/
abbrev wr (c : List (String × Built)) : List String := c.map Prod.fst

/-- Different components write different names, and what is read is written before or never. -/
structure Ordered (cs : List (List (String × Built))) : Prop where
  own : cs.Pairwise fun c c' => ∀ n ∈ wr c, n ∉ wr c'
  reads : ∀ p c q, cs = p ++ c :: q → ∀ n ∈ rd c, (∃ c' ∈ p, n ∈ wr c') ∨ ∀ c' ∈ cs, n ∉ wr c'

/-- The variables of a component have these sizes, and all its outputs have the same inputs. -/
structure Shaped (size : String → Nat) (c : List (String × Built)) : Prop where
  nodup : (rd c).Nodup
  ins : ∀ p ∈ c, p.2.ins = insOf c
  sizeIn : ∀ q ∈ insOf c, size q.1 = q.2
  sizeOut : ∀ p ∈ c, size p.1 = prodShape p.2.shape
  inj : ∀ p ∈ c, ∀ q ∈ c, p.1 = q.1 → p = q

/-- From the arrays `arr` of its inputs the component computes the arrays `arr` of its outputs, without exceptions and with
exact partials. -/
def Holds (arr : String → Nat → ℝ) (c : List (String × Built)) : Prop :=
  ∀ inp, (∀ n ∈ rd c, inp n = arr n) → ∀ p ∈ c,
    p.2.Good p.2.shape (fun idx => arr p.1 (ravel p.2.shape idx)) inp

/-- The component at a position. -/
noncomputable abbrev flatComp (size : String → Nat) (cs : List (List (String × Built))) (k : Ref) : Comp (FlatArr size) :=
  outsComp size (cs.getD k [])

/-- Its partials. -/
noncomputable abbrev flatPartials (size : String → Nat) (cs : List (List (String × Built))) (k : Ref) :
    Partials (flatComp size cs k) := outsD size (cs.getD k [])

section
variable {size : String → Nat} {cs : List (List (String × Built))} {arr : String → Nat → ℝ}

theorem map_range_getD {α β : Type} (f : α → β) (l : List α) (d : α) :
    (List.range l.length).map (fun k => f (l.getD k d)) = l.map f := by
  refine List.ext_getElem (by simp) fun i h1 h2 => ?_
  have : i < l.length := by simpa using h2
  simp [List.getD_eq_getElem?_getD, List.getElem?_eq_getElem this]

theorem getD_lt {α : Type} {l : List α} {k : Nat} (h : k < l.length) (d : α) : l.getD k d = l[k] := by
  simp [List.getD_eq_getElem?_getD, List.getElem?_eq_getElem h]

theorem before_range {n u v : Nat} (h : v < u) (hu : u < n) : Before (List.range n) v u := by
  have split : ∀ {k m : Nat}, k < m → ∃ t, List.range m = List.range k ++ k :: t := by
    intro k m hk
    obtain ⟨d, rfl⟩ := Nat.exists_eq_add_of_lt hk
    rw [show k + d + 1 = k + 1 + d from by omega, List.range_add, List.range_succ]
    exact ⟨(List.range d).map (k + 1 + ·), by simp⟩
  obtain ⟨t, ht⟩ := split hu
  obtain ⟨t', ht'⟩ := split h
  exact ⟨List.range v, t', t, by rw [ht, ht']; simp⟩

theorem flat_own (h : Ordered cs) : OwnNames (· ∈ List.range cs.length) (flatComp size cs) := by
  intro u v n hu hv h1 h2
  simp only [List.mem_range] at hu hv
  simp only [flatComp, outsComp, getD_lt hu, getD_lt hv] at h1 h2
  rcases lt_trichotomy u v with hlt | rfl | hlt
  · exact absurd h2 (List.pairwise_iff_getElem.1 h.own u v hu hv hlt n h1)
  · rfl
  · exact absurd h1 (List.pairwise_iff_getElem.1 h.own v u hv hu hlt n h2)

theorem flat_reads (h : Ordered cs) : ∀ u ∈ List.range cs.length, ∀ n ∈ (flatComp size cs u).reads,
    (∀ v ∈ List.range cs.length, n ∉ (flatComp size cs v).writes) ∨
      ∃ v, Before (List.range cs.length) v u ∧ n ∈ (flatComp size cs v).writes := by
  intro u hu n hn
  simp only [List.mem_range] at hu
  simp only [flatComp, outsComp, getD_lt hu] at hn
  rcases h.reads (cs.take u) cs[u] (cs.drop (u + 1))
    (by rw [← List.drop_eq_getElem_cons hu, List.take_append_drop]) n hn with ⟨c, hc, hm⟩ | hf
  · obtain ⟨v, hv, rfl⟩ := List.getElem_of_mem hc
    have hv' : v < u ∧ v < cs.length := by simpa using hv
    refine Or.inr ⟨v, before_range hv'.1 hu, ?_⟩
    simp only [flatComp, outsComp, getD_lt hv'.2]
    simpa using hm
  · refine Or.inl fun v hv => ?_
    simp only [List.mem_range] at hv
    simp only [flatComp, outsComp, getD_lt hv]
    exact hf _ (List.getElem_mem _)

/-- What the components read and write before `c`. -/
theorem flat_prefix (h : Ordered cs) (hs : ∀ c ∈ cs, Shaped size c) (hh : ∀ c ∈ cs, Holds arr c)
    (hz : ∀ n i, size n ≤ i → arr n i = 0) {init : Store (FlatArr size)}
    (hi : ∀ n, (∀ c ∈ cs, n ∉ wr c) → ∀ i, init n i = arr n i) (p q : List (List (String × Built))) (e : cs = p ++ q) :
    runAllE (p.map (outsCompE size)) init = .ok (runAll (p.map (outsComp size)) init) ∧
    ∀ n, ((∃ c ∈ p, n ∈ wr c) ∨ ∀ c ∈ cs, n ∉ wr c) → ∀ i, runAll (p.map (outsComp size)) init n i = arr n i := by
  induction p using List.reverseRecOn generalizing q with
  | nil =>
    refine ⟨rfl, ?_⟩
    rintro n (⟨c, hc, -⟩ | hn) i
    · cases hc
    · exact hi n hn i
  | append_singleton p c ih =>
    have e' : cs = p ++ c :: q := by rw [e]; simp
    obtain ⟨ih1, ih2⟩ := ih (c :: q) e'
    have hc : c ∈ cs := by rw [e']; simp
    have hin : ∀ n ∈ rd c, lookup (reads := rd c) (fun i => runAll (p.map (outsComp size)) init (rd c)[i]) n = arr n := by
      intro n hn
      funext j
      rw [lookup_store _ hn j]
      split
      · exact ih2 n (h.reads p c q e' n hn) ⟨j, by assumption⟩
      · exact (hz n j (by omega)).symm
    have hgood := hh c hc _ hin
    have hrun : (outsCompE size c).run (runAll (p.map (outsComp size)) init) =
        .ok ((outsComp size c).run (runAll (p.map (outsComp size)) init)) := by
      refine outsCompE_run fun b hb => ?_
      obtain ⟨r, r1, -⟩ := (hgood b hb).value
      exact ⟨r, r1⟩
    refine ⟨?_, fun n hn i => ?_⟩
    · rw [List.map_append, List.map_append, runAllE_append, runAll_append, ih1]
      simp only [List.map_cons, List.map_nil, runAllE, hrun]
      rfl
    · rw [List.map_append, runAll_append]
      show (outsComp size c).run _ n i = _
      unfold Comp.run
      by_cases hm : n ∈ wr c
      · rw [if_pos (show n ∈ (outsComp size c).writes from hm)]
        obtain ⟨b, hb, rfl, hf⟩ := outs_find hm
        show (match c.find? (fun p => p.1 == b.1) with
          | none => 0
          | some p => p.2.total _ i) = _
        rw [hf]
        obtain ⟨r, r1, r2⟩ := (hgood b hb).value
        have hlt : i.1 < prodShape b.2.shape := by rw [← (hs c hc).sizeOut b hb]; exact i.2
        have := r2 _ (unravel_inBounds hlt)
        rw [ravel_unravel hlt] at this
        rw [← this]
        exact congrFun (total_of r1) i.1
      · rw [if_neg (show n ∉ (outsComp size c).writes from hm)]
        refine ih2 n ?_ i
        rcases hn with ⟨c', hc', hm'⟩ | hn
        · rcases List.mem_append.1 hc' with h1 | h1
          · exact Or.inl ⟨c', h1, hm'⟩
          · obtain rfl := List.mem_singleton.1 h1
            exact absurd hm' hm
        · exact Or.inr hn

/-- Running the components gives every name its array. -/
theorem flat_values (h : Ordered cs) (hs : ∀ c ∈ cs, Shaped size c) (hh : ∀ c ∈ cs, Holds arr c)
    (hz : ∀ n i, size n ≤ i → arr n i = 0) {init : Store (FlatArr size)}
    (hi : ∀ n, (∀ c ∈ cs, n ∉ wr c) → ∀ i, init n i = arr n i) :
    runAllE (cs.map (outsCompE size)) init = .ok (runAll (cs.map (outsComp size)) init) ∧
    ∀ n i, runAll (cs.map (outsComp size)) init n i = arr n i := by
  obtain ⟨h1, h2⟩ := flat_prefix h hs hh hz hi cs [] (by simp)
  refine ⟨h1, fun n => h2 n ?_⟩
  by_cases hn : ∃ c ∈ cs, n ∈ wr c
  · exact Or.inl hn
  · exact Or.inr fun c hc hm => hn ⟨c, hc, hm⟩

/-- The arrays, as inputs of a component. -/
theorem lookup_arr {S : Store (FlatArr size)} (hS : ∀ n i, S n i = arr n i) (hz : ∀ n i, size n ≤ i → arr n i = 0)
    {reads : List String} {n : String} (hn : n ∈ reads) :
    lookup (reads := reads) (fun i => S reads[i]) n = arr n := by
  funext j
  rw [lookup_store _ hn j]
  split
  · exact hS n _
  · exact (hz n j (by omega)).symm

theorem holds_exact {S : Store (FlatArr size)} (hS : ∀ n i, S n i = arr n i) (hz : ∀ n i, size n ≤ i → arr n i = 0)
    {c : List (String × Built)} (hs : Shaped size c) (hh : Holds arr c) :
    (outsD size c).ExactAt fun i => S (outsComp size c).reads[i] := by
  refine outs_exactAt hs.nodup hs.sizeIn hs.sizeOut _ fun p hp => ?_
  have := (hh _ (fun n hn => lookup_arr hS hz hn) p hp).exact
  rw [hs.ins p hp] at this
  exact this

/-- Forward accumulation gives derivatives, and is the only solution of the linear system. -/
theorem totals_of {E : String → Type} [∀ n, NormedAddCommGroup (E n)] [∀ n, NormedSpace ℝ (E n)]
    {P : Type} [NormedAddCommGroup P] [NormedSpace ℝ P] {comp : Ref → Comp E} {D : (u : Ref) → Partials (comp u)}
    {l : List Ref} (hnd : l.Nodup) (hown : OwnNames (· ∈ l) comp)
    (hreads : ∀ u ∈ l, ∀ n ∈ (comp u).reads,
      (∀ v ∈ l, n ∉ (comp v).writes) ∨ ∃ v, Before l v u ∧ n ∈ (comp v).writes)
    {init : P → Store E} {p₀ : P} {d₀ : (n : String) → P →L[ℝ] E n}
    (hinit : ∀ n, HasFDerivAt (fun p => init p n) (d₀ n) p₀)
    (hexact : ∀ u ∈ l, (D u).ExactAt fun i => runAll (l.map comp) (init p₀) (comp u).reads[i]) :
    let tangents := runAll (l.map fun u => tangentComp P (comp u) (D u) (runAll (l.map comp) (init p₀))) d₀
    (∀ n, HasFDerivAt (fun p => runAll (l.map comp) (init p) n) (tangents n) p₀) ∧
    ∀ d, TotalSystem (· ∈ l) comp D (runAll (l.map comp) (init p₀)) d₀ d ↔ d = tangents := by
  intro tangents
  have hsys : TotalSystem (· ∈ l) comp D (runAll (l.map comp) (init p₀)) d₀ tangents := by
    refine ⟨fun n hn => ?_, fun u hu n hn => ?_⟩
    · exact runAll_untouched (comp := fun u =>
        tangentComp P (comp u) (D u) (runAll (l.map comp) (init p₀))) l d₀ hn
    · exact runAll_fixed (comp := fun u =>
        tangentComp P (comp u) (D u) (runAll (l.map comp) (init p₀))) hnd hown hreads d₀ hu hn
  have hder := fun d hd => total_hasFDerivAt (d := d) hnd hown hreads (fun n _ => hinit n) hexact hd
  refine ⟨hder _ hsys, fun d => ⟨fun hd => funext fun n => ?_, fun hd => hd ▸ hsys⟩⟩
  exact (hder d hd n).unique (hder _ hsys n)

/-- A list has only one split at an element that is not in front of it. -/
theorem split_unique {α : Type} {a a' b b' : List α} {u : α} (e : a ++ u :: b = a' ++ u :: b') (ha : u ∉ a) (ha' : u ∉ a') :
    a = a' ∧ b = b' := by
  induction a generalizing a' with
  | nil =>
    cases a' with
    | nil => cases e; exact ⟨rfl, rfl⟩
    | cons x a' => cases e; simp at ha'
  | cons x a ih =>
    cases a' with
    | nil => cases e; simp at ha
    | cons y a' =>
      simp only [List.cons_append, List.cons.injEq] at e
      obtain ⟨rfl, e⟩ := e
      obtain ⟨rfl, rfl⟩ := ih e (fun h => ha (by simp [h])) (fun h => ha' (by simp [h]))
      exact ⟨rfl, rfl⟩

/-- A split of a flattened list. -/
theorem flatMap_split {α β : Type} {f : α → List β} {l : List α} {p q : List β} {c : β} (h : l.flatMap f = p ++ c :: q) :
    ∃ a u b p' q', l = a ++ u :: b ∧ f u = p' ++ c :: q' ∧ p = a.flatMap f ++ p' := by
  induction l generalizing p with
  | nil => simp at h
  | cons u l ih =>
    rw [List.flatMap_cons] at h
    rcases List.append_eq_append_iff.1 h with ⟨t, h1, h2⟩ | ⟨t, h1, h2⟩
    · obtain ⟨a, v, b, p', q', rfl, h4, rfl⟩ := ih h2
      exact ⟨u :: a, v, b, p', q', rfl, h4, by rw [h1]; simp⟩
    · cases t with
      | nil =>
        simp only [List.append_nil, List.nil_append] at h1 h2
        obtain ⟨a, v, b, p', q', rfl, h4, h5⟩ := ih (p := []) h2.symm
        exact ⟨u :: a, v, b, p', q', rfl, h4, by rw [← h1, List.flatMap_cons, List.append_assoc, ← h5]; simp⟩
      | cons x t =>
        cases h2
        exact ⟨[], u, l, p, t, rfl, h1, rfl⟩

/-- Components may be replaced by lists of components that read and write no more than they do. -/
theorem ordered_flatMap {V : String → Type} {comps : List Ref} {ic : Ref → Comp V}
    {block : Ref → List (List (String × Built))} (hnd : comps.Nodup) (hb : ∀ u ∈ comps, Ordered (block u))
    (hw : ∀ u ∈ comps, ∀ c ∈ block u, ∀ n ∈ wr c, n ∈ (ic u).writes)
    (hr : ∀ u ∈ comps, ∀ c ∈ block u, ∀ n ∈ rd c, n ∈ (ic u).reads ∨ n ∈ (ic u).writes)
    (hown : OwnNames (· ∈ comps) ic)
    (hread : ∀ u ∈ comps, ∀ n ∈ (ic u).reads, ReadOk ic comps u n) : Ordered (comps.flatMap block) := by
  refine ⟨List.pairwise_flatMap.2 ⟨fun u hu => (hb u hu).own, ?_⟩, ?_⟩
  · refine List.Pairwise.imp_of_mem ?_ hnd
    intro u v hu hv hne c hc c' hc' n hn hn'
    exact hne (hown u v n hu hv (hw u hu c hc n hn) (hw v hv c' hc' n hn'))
  · intro p c q he n hn
    obtain ⟨a, u, b, p', q', hl, hu, rfl⟩ := flatMap_split he
    have hm : u ∈ comps := by rw [hl]; simp
    have hcu : c ∈ block u := by rw [hu]; simp
    rcases (hb u hm).reads p' c q' hu n hn with ⟨c', hc', h1⟩ | h1
    · exact Or.inl ⟨c', List.mem_append.2 (Or.inr hc'), h1⟩
    have others : ∀ {v}, v ∈ comps → n ∈ (ic v).writes → ∀ c' ∈ comps.flatMap block, n ∈ wr c' → c' ∈ block v := by
      intro v hv hnv c' hc' hn'
      obtain ⟨x, hx, hcx⟩ := List.mem_flatMap.1 hc'
      obtain rfl := hown x v n hx hv (hw x hx c' hcx n hn') hnv
      exact hcx
    rcases hr u hm c hcu n hn with h2 | h2
    · rcases hread u hm n h2 with h3 | ⟨v, ⟨a', b', s', h3⟩, h4⟩
      · refine Or.inr fun c' hc' hn' => ?_
        obtain ⟨x, hx, hcx⟩ := List.mem_flatMap.1 hc'
        exact h3 x hx (hw x hx c' hcx n hn')
      · have hv : v ∈ comps := by rw [h3]; simp
        have hva : v ∈ a := by
          have e : a ++ u :: b = (a' ++ v :: b') ++ u :: s' := by rw [← hl, h3]; simp
          have hnd' : (a ++ u :: b).Nodup := hl ▸ hnd
          have hnd2 : ((a' ++ v :: b') ++ u :: s').Nodup := e ▸ hnd'
          have ha : u ∉ a := fun hh => (List.nodup_append.1 hnd').2.2 u hh u (by simp) rfl
          have ha' : u ∉ a' ++ v :: b' := fun hh => (List.nodup_append.1 hnd2).2.2 u hh u (by simp) rfl
          rw [(split_unique e ha ha').1]
          simp
        by_cases hx : ∃ c' ∈ comps.flatMap block, n ∈ wr c'
        · obtain ⟨c', hc', hn'⟩ := hx
          refine Or.inl ⟨c', List.mem_append.2 (Or.inl (List.mem_flatMap.2 ⟨v, hva, ?_⟩)), hn'⟩
          exact others hv h4 c' hc' hn'
        · exact Or.inr fun c' hc' hn' => hx ⟨c', hc', hn'⟩
    · exact Or.inr fun c' hc' hn' => h1 c' (others hm h2 c' hc' hn') hn'

end
end OM
