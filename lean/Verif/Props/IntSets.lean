import Verif.Props.Passes
/-!
# Which ordering constraints the order of a set of positions costs (C05)
-/

namespace OM
open Spec

/-- **C05, refuted for a family.** Whatever the order of sets: if the positions to delete are iterated as `i`, `j` with `j < i`,
then `j` is deleted first, and the dependency deleted next is not the one at position `i` but the one after it. If no
other dependency needs that one, the ordering constraint is lost. -/
theorem c05_lost (o : SetOrder Nat) (g : Graph) (u i j : Nat)
    (hset : o.list (removeCandidates g u) = [i, j]) (hji : j < i) (hi : i + 1 < (g u).length)
    (hn : (g u).Nodup) (hother : ∀ w ∈ g u, ¬ Needs g w (g u)[i + 1]) :
    Needs g u (g u)[i + 1] ∧ ¬ Needs (removeIndirect o g u) u (g u)[i + 1] := by
  have hmem : (g u)[i + 1] ∈ g u := List.getElem_mem _
  have hj : j < (g u).length := by omega
  have h1 : removeByIndex (g u) j = (g u).eraseIdx j := by
    unfold removeByIndex
    rw [List.getElem?_eq_getElem hj]
    exact hn.erase_getElem j hj
  have hlen : ((g u).eraseIdx j).length = (g u).length - 1 := List.length_eraseIdx_of_lt hj
  have hi' : i < ((g u).eraseIdx j).length := by omega
  have hget : ((g u).eraseIdx j)[i] = (g u)[i + 1] := by
    rw [List.getElem_eraseIdx]
    rw [dif_neg (by omega)]
  have hn' : ((g u).eraseIdx j).Nodup := hn.sublist (List.eraseIdx_sublist ..)
  have hred : reducedDeps o g u = ((g u).eraseIdx j).erase (g u)[i + 1] := by
    unfold reducedDeps
    rw [hset]
    have : ¬ (2 = (g u).length) := by omega
    simp only [List.length_cons, List.length_nil, Nat.zero_add, Nat.reduceAdd, if_neg this, List.reverse_cons,
      List.reverse_nil, List.nil_append, List.cons_append, List.foldl_cons, List.foldl_nil, Nat.zero_le, if_true, h1]
    unfold removeByIndex
    rw [List.getElem?_eq_getElem hi', hget]
  have hnot : (g u)[i + 1] ∉ reducedDeps o g u := by
    rw [hred, hn'.mem_erase_iff]
    simp
  have hsub : ∀ a b, Edge (removeIndirect o g u) a b → Edge g a b := by
    intro a b h
    unfold Edge removeIndirect at *
    by_cases ha : a = u
    · subst ha
      rw [Function.update_self, hred] at h
      exact List.mem_of_mem_eraseIdx (List.mem_of_mem_erase h)
    · rwa [Function.update_of_ne ha] at h
  refine ⟨.single hmem, fun h => ?_⟩
  rcases Relation.TransGen.head'_iff.1 h with ⟨w, hw, hr⟩
  have hwr : w ∈ reducedDeps o g u := by
    unfold Edge removeIndirect at hw
    rwa [Function.update_self] at hw
  rcases Relation.reflTransGen_iff_eq_or_transGen.1 hr with he | ht
  · exact hnot (he ▸ hwr)
  · exact hother w (hsub _ _ hw) (Relation.TransGen.mono (p := Edge g) hsub _ _ ht)

/-- The table of a set of at most two numbers with different remainders modulo eight. -/
def twoSlots (a b : Nat) (p q : Bool) : PyTable :=
  (List.range 8).map fun s => if s = a % 8 ∧ p then some a else if s = b % 8 ∧ q then some b else none

theorem twoSlots_get (a b : Nat) (p q : Bool) (s : Nat) (hs : s < 8) : (twoSlots a b p q)[s]? =
    some (if s = a % 8 ∧ p then some a else if s = b % 8 ∧ q then some b else none) := by
  unfold twoSlots
  rw [List.getElem?_map, List.getElem?_range hs]
  rfl

theorem twoSlots_keys (a b : Nat) (p q : Bool) (h : a % 8 < b % 8) :
    (twoSlots a b p q).filterMap id = (if p then [a] else []) ++ (if q then [b] else []) := by
  have ha : a % 8 < 8 := Nat.mod_lt _ (by omega)
  have hb : b % 8 < 8 := Nat.mod_lt _ (by omega)
  unfold twoSlots
  generalize a % 8 = x at *
  generalize b % 8 = y at *
  rw [show List.range 8 = [0, 1, 2, 3, 4, 5, 6, 7] from rfl]
  cases p <;> cases q <;> interval_cases y <;> interval_cases x <;> simp

theorem pyAdd_twoSlots (a b : Nat) (h : a % 8 < b % 8) (p q : Bool) :
    pyAdd (twoSlots a b p q) a = twoSlots a b true q ∧ pyAdd (twoSlots a b p q) b = twoSlots a b p true := by
  have ha : a % 8 < 8 := Nat.mod_lt _ (by omega)
  have hb : b % 8 < 8 := Nat.mod_lt _ (by omega)
  have hlen : ∀ p q, (twoSlots a b p q).length = 8 := fun p q => by simp [twoSlots]
  have hput : ∀ k, k % 8 < 8 → ((twoSlots a b p q)[k % 8]? == some none || (twoSlots a b p q)[k % 8]? == some (some k)) = true →
      pyPut (twoSlots a b p q) k = (twoSlots a b p q).set (k % 8) (some k) := by
    intro k hk hfree
    unfold pyPut
    rw [hlen, show k + 8 = (k + 7) + 1 from rfl, pyProbe, hlen]
    have : pyRound 8 (k % 8) = [k % 8] := by
      unfold pyRound
      rw [if_neg (by omega)]
    rw [this, List.find?_cons_of_pos (by exact hfree)]
  have hfill : ∀ p q, pyFill (twoSlots a b p q) ≤ 2 := by
    intro p q
    unfold pyFill
    rw [twoSlots_keys a b p q h]
    cases p <;> cases q <;> simp
  have hadd : ∀ k p' q', pyPut (twoSlots a b p q) k = twoSlots a b p' q' →
      pyAdd (twoSlots a b p q) k = twoSlots a b p' q' := by
    intro k p' q' e
    unfold pyAdd
    simp only [e, hlen]
    rw [if_neg (by have := hfill p' q'; omega)]
  constructor
  · refine hadd a true q ?_
    rw [hput a ha (by rw [twoSlots_get a b p q _ ha, if_neg (c := _ = b % 8 ∧ _) (by omega)]; cases p <;> simp)]
    refine List.ext_getElem? fun s => ?_
    rcases Nat.lt_or_ge s 8 with hs | hs
    · rw [List.getElem?_set, hlen, twoSlots_get _ _ _ _ _ hs, twoSlots_get _ _ _ _ _ hs]
      by_cases e : a % 8 = s
      · simp [← e, ha]
      · have e' : ¬ s = a % 8 := fun h => e h.symm
        simp [e, e']
    · rw [List.getElem?_eq_none (by simpa [hlen] using hs), List.getElem?_eq_none (by simpa [hlen] using hs)]
  · refine hadd b p true ?_
    rw [hput b hb (by rw [twoSlots_get a b p q _ hb, if_neg (c := _ = a % 8 ∧ _) (by omega)]; cases q <;> simp)]
    refine List.ext_getElem? fun s => ?_
    rcases Nat.lt_or_ge s 8 with hs | hs
    · rw [List.getElem?_set, hlen, twoSlots_get _ _ _ _ _ hs, twoSlots_get _ _ _ _ _ hs]
      by_cases e : b % 8 = s
      · have : ¬ (s = a % 8) := by omega
        simp [this, e, hs]
      · have e' : ¬ s = b % 8 := fun h => e h.symm
        simp [e, e']
    · rw [List.getElem?_eq_none (by simpa [hlen] using hs), List.getElem?_eq_none (by simpa [hlen] using hs)]

/-- CPython iterates a set of two numbers with different remainders modulo eight in the order of the remainders, whatever
the order and the number of insertions. -/
theorem pySetList_two (a b : Nat) (h : a % 8 < b % 8) (xs : List Nat) (hxs : ∀ x, x ∈ xs ↔ x = a ∨ x = b) :
    pySetList xs = [a, b] := by
  have key : ∀ (xs : List Nat) (p q : Bool), (∀ x ∈ xs, x = a ∨ x = b) →
      xs.foldl pyAdd (twoSlots a b p q) = twoSlots a b (p || decide (a ∈ xs)) (q || decide (b ∈ xs)) := by
    intro xs
    induction xs with
    | nil => intro p q _; simp
    | cons x xs ih =>
      intro p q hx
      rw [List.foldl_cons]
      have hne : a ≠ b := by rintro rfl; omega
      rcases hx x (by simp) with rfl | rfl
      · rw [(pyAdd_twoSlots _ b h p q).1, ih _ _ fun y hy => hx y (by simp [hy])]
        simp [hne.symm]
      · rw [(pyAdd_twoSlots a _ h p q).2, ih _ _ fun y hy => hx y (by simp [hy])]
        simp [hne]
  have h0 : List.replicate 8 none = twoSlots a b false false := by simp [twoSlots]
  unfold pySetList
  rw [h0, key xs _ _ fun x hx => (hxs x).1 hx, twoSlots_keys a b _ _ h]
  simp [(hxs a).2 (.inl rfl), (hxs b).2 (.inr rfl)]

/-- **C05, refuted for CPython.** This happens to every expression with exactly two redundant dependencies, at positions
`j < i`, if the remainder modulo eight of `i` is the smaller one: the dependency after `i` is lost, if there is one and no other
dependency needs it. -/
theorem c05_lost_cpython (g : Graph) (u i j : Nat) (hji : j < i) (h8 : i % 8 < j % 8) (hi : i + 1 < (g u).length)
    (hn : (g u).Nodup)
    (hred : ∀ k, ∀ h : k < (g u).length, (∃ c ∈ g u, (g u)[k] ∈ g c) ↔ k = i ∨ k = j)
    (hother : ∀ w ∈ g u, ¬ Needs g w (g u)[i + 1]) :
    Needs g u (g u)[i + 1] ∧ ¬ Needs (removeIndirect pyOrder g u) u (g u)[i + 1] := by
  refine c05_lost pyOrder g u i j (pySetList_two i j h8 _ fun k => ?_) hji hi hn hother
  unfold removeCandidates depIndex
  simp only [List.mem_flatMap, List.mem_filterMap]
  constructor
  · rintro ⟨c, hc, x, hx, hk⟩
    rw [List.findIdx?_eq_some_iff_getElem] at hk
    obtain ⟨hk, he, _⟩ := hk
    exact (hred k hk).1 ⟨c, hc, by rw [show (g u)[k] = x by simpa using he]; exact hx⟩
  · intro hk
    have hlt : k < (g u).length := by omega
    obtain ⟨c, hc, hx⟩ := (hred k hlt).2 hk
    refine ⟨c, hc, _, hx, ?_⟩
    rw [List.findIdx?_eq_some_iff_getElem]
    refine ⟨hlt, by simp, fun m hm he => ?_⟩
    have he' : (g u)[m] = (g u)[k] := by simpa using he
    have := hn.getElem_inj_iff.1 he'
    omega

/-- Expression `1` has ten direct dependencies `2 … 11`; `3` needs `10`, `4` needs `3`. -/
def oneEightDeps : Graph :=
  ofAdj [[1], [2, 3, 4, 5, 6, 7, 8, 9, 10, 11], [], [10], [3], [], [], [], [], [], [], []]

/-- The hypotheses are met: `1` loses its dependency `11`. -/
example : Needs oneEightDeps 1 11 ∧ ¬ Needs (removeIndirect pyOrder oneEightDeps 1) 1 11 :=
  c05_lost_cpython oneEightDeps 1 8 1 (by decide) (by decide) (by decide) (by decide) (by decide) (by
    have key : ∀ w, 2 ≤ w → ∀ v ∈ oneEightDeps w, v = 3 ∨ v = 10 := by
      intro w hw v hv
      match w, hw with
      | 2, _ | 5, _ | 6, _ | 7, _ | 8, _ | 9, _ | 10, _ | 11, _ | n + 12, _ => simp [oneEightDeps, ofAdj] at hv
      | 3, _ | 4, _ => simp [oneEightDeps, ofAdj] at hv; simp [hv]
    intro w hw h
    have hw2 : 2 ≤ w := (by decide : ∀ w ∈ oneEightDeps 1, 2 ≤ w) w hw
    have : (oneEightDeps 1)[8 + 1] = 3 ∨ (oneEightDeps 1)[8 + 1] = 10 := by
      generalize (oneEightDeps 1)[8 + 1] = x at h
      induction h with
      | single h => exact key _ hw2 _ h
      | tail _ h ih => exact key _ (by omega) _ h
    revert this
    decide)

end OM
