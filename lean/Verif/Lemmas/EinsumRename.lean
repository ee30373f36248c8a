import Verif.Lemmas.Einsum
import Verif.Lemmas.Subscripts

/-! # Renaming the labels of an einsum -/

namespace OM
open Spec

/-- Different labels of the list stay different. -/
def InjOn {α β : Type} (h : α → β) (L : List α) : Prop := ∀ a ∈ L, ∀ b ∈ L, h a = h b → a = b

theorem InjOn.mono {α β : Type} {h : α → β} {L M : List α} (hi : InjOn h M) (hs : ∀ a ∈ L, a ∈ M) : InjOn h L :=
  fun a ha b hb e => hi a (hs a ha) b (hs b hb) e

theorem dedup_map_injOn {α β : Type} [DecidableEq α] [DecidableEq β] {h : α → β} {l : List α} (hi : InjOn h l) :
    (l.map h).dedup = l.dedup.map h := by
  induction l with
  | nil => rfl
  | cons a l ih =>
    have ih := ih (hi.mono fun b hb => by simp [hb])
    by_cases ha : a ∈ l
    · rw [List.dedup_cons_of_mem ha, List.map_cons, List.dedup_cons_of_mem (List.mem_map_of_mem ha), ih]
    · rw [List.dedup_cons_of_notMem ha, List.map_cons, List.dedup_cons_of_notMem, ih, List.map_cons]
      intro hm
      obtain ⟨b, hb, he⟩ := List.mem_map.1 hm
      exact ha (hi b (by simp [hb]) a (by simp) he ▸ hb)

theorem idxOf_map_injOn {α β : Type} [DecidableEq α] [DecidableEq β] {h : α → β} {l : List α} {a : α}
    (hi : InjOn h (a :: l)) : (l.map h).idxOf (h a) = l.idxOf a := by
  induction l with
  | nil => rfl
  | cons b l ih =>
    rw [List.map_cons, List.idxOf_cons, List.idxOf_cons]
    by_cases hb : b = a
    · subst hb; simp
    · have hb' : h b ≠ h a := fun e => hb (hi b (by simp) a (by simp) e)
      have := ih (hi.mono fun x hx => by
        rcases List.mem_cons.1 hx with rfl | hx
        · simp
        · simp [hx])
      have e1 : (b == a) = false := by simpa using hb
      have e2 : (h b == h a) = false := by simpa using hb'
      rw [this, e1, e2]

theorem mem_map_injOn {α β : Type} {h : α → β} {l : List α} {a : α} (hi : InjOn h (a :: l)) :
    h a ∈ l.map h ↔ a ∈ l := by
  constructor
  · intro hm
    obtain ⟨b, hb, he⟩ := List.mem_map.1 hm
    exact hi b (by simp [hb]) a (by simp) he ▸ hb
  · exact List.mem_map_of_mem

section
variable (h : Char → Char)

def rename (t : List (List Char × List Nat)) : List (List Char × List Nat) := t.map fun p => (p.1.map h, p.2)

def labelsOf (t : List (List Char × List Nat)) (out : List Char) : List Char := (npAxes t).map Prod.fst ++ out

theorem npAxes_rename (t : List (List Char × List Nat)) :
    npAxes (rename h t) = (npAxes t).map fun a => (h a.1, a.2) := by
  induction t with
  | nil => rfl
  | cons p t ih =>
    show npAxes ((p.1.map h, p.2) :: rename h t) = _
    rw [npAxes_cons, npAxes_cons, List.map_append, ih, List.zip_map_left]
    rfl

variable {h} {t : List (List Char × List Nat)} {out : List Char}

theorem npDim_rename {ch : Char} (hi : InjOn h (ch :: (npAxes t).map Prod.fst)) :
    npDim (npAxes (rename h t)) (h ch) = npDim (npAxes t) ch := by
  unfold npDim
  rw [npAxes_rename, List.filter_map, List.map_map]
  have : (npAxes t).filter ((fun a => decide (a.1 = h ch)) ∘ fun a => (h a.1, a.2)) =
      (npAxes t).filter fun a => a.1 = ch := by
    refine List.filter_congr fun a ha => ?_
    simp only [Function.comp, decide_eq_decide]
    exact ⟨fun e => hi a.1 (List.mem_cons_of_mem _ (List.mem_map_of_mem ha)) ch (by simp) e, fun e => by rw [e]⟩
  rw [this]
  rfl

variable (hi : InjOn h (labelsOf t out))
include hi

theorem npEinsumOk_rename : NpEinsumOk (rename h t) (out.map h) ↔ NpEinsumOk t out := by
  have hax : ∀ {p}, p ∈ t → ∀ a ∈ p.1.zip p.2, a.1 ∈ labelsOf t out := fun hp a ha =>
    List.mem_append_left _ (List.mem_map_of_mem (mem_npAxes hp ha))
  have hzip : ∀ p : List Char × List Nat, (p.1.map h).zip p.2 = (p.1.zip p.2).map fun a => (h a.1, a.2) := by
    intro p; rw [List.zip_map_left]; rfl
  have hdim : ∀ a ∈ npAxes t, npDim (npAxes (rename h t)) (h a.1) = npDim (npAxes t) a.1 := fun a ha =>
    npDim_rename (hi.mono fun x hx => by
      rcases List.mem_cons.1 hx with rfl | hx
      · exact List.mem_append_left _ (List.mem_map_of_mem ha)
      · exact List.mem_append_left _ hx)
  unfold NpEinsumOk
  refine and_congr (by simp [rename]) (and_congr ?_ (and_congr ?_ (and_congr ?_ ?_)))
  · simp only [rename, List.mem_map, forall_exists_index, and_imp, forall_apply_eq_imp_iff₂, List.length_map, hzip]
    refine forall₂_congr fun p hp => and_congr Iff.rfl ?_
    refine forall₂_congr fun a ha => forall₂_congr fun b hb => ?_
    exact ⟨fun h1 e => h1 (by rw [e]), fun h1 e => h1 (hi _ (hax hp a ha) _ (hax hp b hb) e)⟩
  · rw [npAxes_rename]
    simp only [List.mem_map, forall_exists_index, and_imp, forall_apply_eq_imp_iff₂]
    rw [← npAxes_rename]
    exact forall₂_congr fun a ha => by rw [hdim a ha]
  · exact ⟨fun hn => List.Nodup.of_map h hn, fun hn => List.Nodup.map_on (fun x hx y hy e =>
      hi x (List.mem_append_right _ hx) y (List.mem_append_right _ hy) e) hn⟩
  · rw [npAxes_rename, List.map_map]
    have : (npAxes t).map (Prod.fst ∘ fun a => (h a.1, a.2)) = ((npAxes t).map Prod.fst).map h := by
      rw [List.map_map]; rfl
    rw [this, List.forall_mem_map]
    refine forall₂_congr fun ch hc => mem_map_injOn (hi.mono fun x hx => ?_)
    rcases List.mem_cons.1 hx with rfl | hx
    · exact List.mem_append_right _ hc
    · exact List.mem_append_left _ hx

theorem npSummed_rename : npSummed (rename h t) (out.map h) = (npSummed t out).map h := by
  unfold npSummed
  have e : (npAxes (rename h t)).map Prod.fst = ((npAxes t).map Prod.fst).map h := by
    rw [npAxes_rename, List.map_map, List.map_map]; rfl
  rw [e, List.filter_map]
  have : ((npAxes t).map Prod.fst).filter ((fun x => decide (x ∉ out.map h)) ∘ h) =
      ((npAxes t).map Prod.fst).filter (· ∉ out) := by
    refine List.filter_congr fun ch hc => ?_
    simp only [Function.comp, decide_eq_decide]
    refine not_congr (mem_map_injOn (hi.mono fun x hx => ?_))
    rcases List.mem_cons.1 hx with rfl | hx
    · exact List.mem_append_left _ hc
    · exact List.mem_append_right _ hx
  rw [this, dedup_map_injOn]
  exact hi.mono fun x hx => List.mem_append_left _ (List.mem_filter.1 hx).1

theorem map_npDim_rename {L : List Char} (hL : ∀ ch ∈ L, ch ∈ labelsOf t out) :
    (L.map h).map (npDim (npAxes (rename h t))) = L.map (npDim (npAxes t)) := by
  rw [List.map_map]
  refine List.map_congr_left fun ch hc => npDim_rename (hi.mono fun x hx => ?_)
  rcases List.mem_cons.1 hx with rfl | hx
  · exact hL _ hc
  · exact List.mem_append_left _ hx

theorem npEinsumShape_rename : npEinsumShape (rename h t) (out.map h) = npEinsumShape t out :=
  map_npDim_rename hi fun _ hc => List.mem_append_right _ hc

theorem npEinsum_rename (xs : Nat → Nat → ℝ) (r : Nat) :
    npEinsum (rename h t) (out.map h) xs r = npEinsum t out xs r := by
  have hsum : ∀ ch ∈ npSummed t out, ch ∈ labelsOf t out := fun ch hc =>
    List.mem_append_left _ (List.mem_filter.1 (List.mem_dedup.1 hc)).1
  unfold npEinsum
  simp only
  rw [npSummed_rename hi, map_npDim_rename hi hsum, npEinsumShape_rename hi]
  refine congrArg List.sum (List.map_congr_left fun q _ => congrArg List.prod ?_)
  have hl : (rename h t).length = t.length := by simp [rename]
  rw [hl]
  refine List.map_congr_left fun k hk => ?_
  have hk := List.mem_range.1 hk
  congr 1
  have e : (rename h t).getD k ([], []) = ((t.getD k ([], [])).1.map h, (t.getD k ([], [])).2) := by
    simp [rename, List.getD_eq_getElem?_getD, hk]
  have hm : t.getD k ([], []) ∈ t := by
    rw [List.getD_eq_getElem?_getD, List.getElem?_eq_getElem hk]
    exact List.getElem_mem hk
  rw [e]
  generalize t.getD k ([], []) = p at hm
  have key : ∀ ch ∈ (npAxes t).map Prod.fst,
      npLookup (out.map h ++ (npSummed t out).map h) (unravel (npEinsumShape t out) r ++ q) (h ch) =
        npLookup (out ++ npSummed t out) (unravel (npEinsumShape t out) r ++ q) ch := by
    intro ch hc
    unfold npLookup
    rw [← List.map_append, idxOf_map_injOn]
    refine hi.mono fun x hx => ?_
    rcases List.mem_cons.1 hx with rfl | hx
    · exact List.mem_append_left _ hc
    · rcases List.mem_append.1 hx with hx | hx
      · exact List.mem_append_right _ hx
      · exact hsum x hx
  unfold npPos
  simp only
  congr 1
  apply List.ext_getElem
  · simp
  · intro j h1 h2
    simp only [List.length_zipWith] at h2
    simp only [List.getElem_zipWith, List.getElem_map]
    split
    · rfl
    · refine key _ (List.mem_map.2 ⟨(p.1[j]'(by omega), p.2[j]'(by omega)),
          mem_npAxes hm (List.mem_iff_getElem.2 ⟨j, by simp; omega, by simp⟩), rfl⟩)

omit hi in
theorem firstAxis_rename {ch : Char} {ops : List (List Char)} (hi : InjOn h (ch :: ops.flatten))
    (shapes : List (List Nat)) : firstAxis (h ch) (ops.map (List.map h)) shapes = firstAxis ch ops shapes := by
  induction ops generalizing shapes with
  | nil => rfl
  | cons S ops ih =>
    have hS : InjOn h (ch :: S) := hi.mono fun x hx => by
      rcases List.mem_cons.1 hx with rfl | hx
      · simp
      · simp [hx]
    simp only [List.map_cons, firstAxis]
    rw [ih (hi.mono fun x hx => by
      rcases List.mem_cons.1 hx with rfl | hx
      · simp
      · rw [List.flatten_cons]; simp only [List.mem_cons, List.mem_append]; exact .inr (.inr hx)),
      idxOf_map_injOn hS]
    by_cases hc : ch ∈ S
    · rw [if_pos hc, if_pos ((mem_map_injOn hS).2 hc)]
    · rw [if_neg hc, if_neg fun hm => hc ((mem_map_injOn hS).1 hm)]

omit hi in
theorem computeEinsumShape_rename {ops : List (List Char)} {out : List Char} (hi : InjOn h (ops.flatten ++ out))
    (shapes : List (List Nat)) : computeEinsumShape (ops.map (List.map h) ++ [out.map h]) shapes =
      computeEinsumShape (ops ++ [out]) shapes := by
  unfold computeEinsumShape
  simp only [List.getLastD_concat, List.dropLast_concat, List.map_eq_nil_iff]
  have : ((out.map h).mapM fun ch => firstAxis ch (ops.map (List.map h)) shapes) =
      out.mapM fun ch => firstAxis ch ops shapes := by
    have hall : ∀ ch ∈ out, InjOn h (ch :: ops.flatten) := fun ch hc => hi.mono fun x hx => by
      rcases List.mem_cons.1 hx with rfl | hx
      · exact List.mem_append_right _ hc
      · exact List.mem_append_left _ hx
    clear hi
    induction out with
    | nil => rfl
    | cons ch out ih =>
      rw [List.map_cons, List.mapM_cons, List.mapM_cons, firstAxis_rename (hall ch (by simp)),
        ih fun c hc => hall c (by simp [hc])]
  rw [this]

omit hi in
/-- The component with other letters. -/
theorem stdEinsum_rename {operands : List (String × List Nat)} {ops : List (List Char)} {out : List Char}
    (hne : ops ≠ []) (ho : ∀ o ∈ ops, Alpha o) (hout : Alpha out) (hi : InjOn h (ops.flatten ++ out))
    (ha : ∀ ch ∈ ops.flatten ++ out, (h ch).isAlpha) :
    stdEinsum operands (subscripts (ops.map (List.map h)) (out.map h)) =
      match stdEinsum operands (subscripts ops out) with
      | .error e => .error e
      | .ok c => .ok ⟨c.names, c.shapes, c.lst.map (List.map h), c.npOps.map (List.map h), c.npOut.map h,
        alphabet.filter (· ∉ subscripts (ops.map (List.map h)) (out.map h)), c.shape⟩ := by
  have ho' : ∀ o ∈ ops.map (List.map h), Alpha o := by
    intro o hm ch hc
    obtain ⟨o', ho', rfl⟩ := List.mem_map.1 hm
    obtain ⟨c', hc', rfl⟩ := List.mem_map.1 hc
    exact ha c' (List.mem_append_left _ (List.mem_flatten.2 ⟨o', ho', hc'⟩))
  have hout' : Alpha (out.map h) := by
    intro ch hc
    obtain ⟨c', hc', rfl⟩ := List.mem_map.1 hc
    exact ha c' (List.mem_append_right _ hc')
  have hne' : ops.map (List.map h) ≠ [] := by simpa using hne
  have hsub : ∀ ops out, subscripts ops out ≠ [] := by intro ops out; simp [subscripts, arrow]
  have hzip : ∀ s : List (List Nat), (ops.map (List.map h)).zip s = rename h (ops.zip s) := by
    intro s; unfold rename; rw [List.zip_map_left]; rfl
  have hI : ∀ s : List (List Nat), InjOn h (labelsOf (ops.zip s) out) := by
    intro s
    refine hi.mono fun x hx => ?_
    rcases List.mem_append.1 hx with hx | hx
    · obtain ⟨a, ha, rfl⟩ := List.mem_map.1 hx
      obtain ⟨p, hp, hap⟩ := List.mem_flatMap.1 ha
      exact List.mem_append_left _ (List.mem_flatten.2 ⟨p.1, (List.of_mem_zip hp).1, (List.of_mem_zip hap).1⟩)
    · exact List.mem_append_right _ hx
  unfold stdEinsum
  rw [if_neg (hsub _ _), if_neg (hsub _ _)]
  simp only
  rw [einsumToList_subscripts hne ho hout, npParse_subscripts hne ho hout,
    einsumToList_subscripts hne' ho' hout', npParse_subscripts hne' ho' hout', computeEinsumShape_rename hi]
  cases computeEinsumShape (ops ++ [out]) (operands.map Prod.snd) with
  | error e => rfl
  | ok shape =>
    simp only [List.length_map]
    rw [hzip, npEinsumShape_rename (hI _)]
    have hiff := npEinsumOk_rename (hI (operands.map Prod.snd))
    by_cases h1 : ops.length ≠ operands.length
    · rw [if_pos h1, if_pos h1]
    · rw [if_neg h1, if_neg h1]
      by_cases h2 : NpEinsumOk (ops.zip (operands.map Prod.snd)) out
      · rw [if_neg (not_not.2 h2), if_neg (not_not.2 (hiff.2 h2))]
        split
        · rfl
        · simp
      · rw [if_pos h2, if_pos fun hx => h2 (hiff.1 hx)]

end
end OM
