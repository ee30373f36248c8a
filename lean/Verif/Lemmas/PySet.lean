import Verif.Model.PySet
import Mathlib.Data.List.Dedup
import Mathlib.RingTheory.ZMod.UnitsCyclic

/-!
# The order of CPython's sets of non-negative integers

The table is searched completely, so that `pySetList` holds every element once; and the elements come in ascending order if
they are below the size of the table, which depends on their number only.
-/

namespace OM

/-! ## The probe sequence -/

/-- One step of the probe sequence without perturbation. -/
def lcg (L i : Nat) : Nat := (i * 5 + 1) % L

theorem lcg_form (L : Nat) (i r : Nat) :
    ((4 * ((lcg L)^[r] i : Nat) + 1 : Nat) : ZMod (4 * L)) = (5 : ZMod (4 * L)) ^ r * ((4 * i + 1 : Nat) : ZMod (4 * L)) := by
  induction r with
  | zero => simp
  | succ r ih =>
    rw [Function.iterate_succ_apply', pow_succ', mul_assoc, ← ih]
    have h : ((4 * lcg L ((lcg L)^[r] i) : Nat) : ZMod (4 * L)) = ((4 * ((lcg L)^[r] i * 5 + 1) : Nat) : ZMod (4 * L)) := by
      rw [ZMod.natCast_eq_natCast_iff]
      unfold lcg
      exact Nat.ModEq.mul_left' 4 (Nat.mod_modEq _ _)
    rw [Nat.cast_add, h]
    push_cast
    ring

theorem lcg_inj {m : Nat} {i r s : Nat} (hr : r < 2 ^ (m + 1)) (hs : s < 2 ^ (m + 1))
    (h : (lcg (2 ^ (m + 1)))^[r] i = (lcg (2 ^ (m + 1)))^[s] i) : r = s := by
  have e : 4 * 2 ^ (m + 1) = 2 ^ (m + 3) := by ring
  have h1 := lcg_form (2 ^ (m + 1)) i r
  have h2 := lcg_form (2 ^ (m + 1)) i s
  rw [h] at h1
  have h3 := h1.symm.trans h2
  rw [e] at h3
  have hu : IsUnit ((4 * i + 1 : Nat) : ZMod (2 ^ (m + 3))) := by
    rw [ZMod.isUnit_iff_coprime]
    apply Nat.Coprime.pow_right
    rw [Nat.coprime_two_right]
    exact ⟨2 * i, by ring⟩
  have h4 := hu.mul_right_cancel h3
  have ho : orderOf (5 : ZMod (2 ^ (m + 3))) = 2 ^ (m + 1) := ZMod.orderOf_five (m + 1)
  exact pow_injOn_Iio_orderOf (by rw [ho]; exact hr) (by rw [ho]; exact hs) h4

/-- The probe sequence visits every slot. -/
theorem lcg_covers {m : Nat} (i j : Nat) (hi : i < 2 ^ (m + 1)) (hj : j < 2 ^ (m + 1)) :
    ∃ r < 2 ^ (m + 1), (lcg (2 ^ (m + 1)))^[r] i = j := by
  have hlt : ∀ r, (lcg (2 ^ (m + 1)))^[r] i < 2 ^ (m + 1) := by
    intro r
    cases r with
    | zero => exact hi
    | succ r => rw [Function.iterate_succ_apply']; exact Nat.mod_lt _ (by positivity)
  have hinj : Function.Injective fun r : Fin (2 ^ (m + 1)) =>
      (⟨(lcg (2 ^ (m + 1)))^[r] i, hlt r⟩ : Fin (2 ^ (m + 1))) := by
    intro r s h
    exact Fin.ext (lcg_inj r.2 s.2 (congrArg Fin.val h))
  obtain ⟨r, hr⟩ := (Finite.injective_iff_surjective.1 hinj) ⟨j, hj⟩
  exact ⟨r, r.2, congrArg Fin.val hr⟩

/-- The slot is free or holds the key. -/
abbrev pyFits (t : PyTable) (k j : Nat) : Bool := t[j]? == some none || t[j]? == some (some k)

theorem pyRound_head (size i : Nat) : ∃ l, pyRound size i = i :: l := by
  unfold pyRound
  split
  · exact ⟨[1, 2, 3, 4, 5, 6, 7, 8, 9].map (i + ·), rfl⟩
  · exact ⟨[], rfl⟩

theorem find_head {p : Nat → Bool} {l : List Nat} {i : Nat} (h : l.find? p = none) (hi : i ∈ l) : p i = false := by
  have := List.find?_eq_none.1 h i hi
  simpa using this

theorem pyProbe_lcg {t : PyTable} {k : Nat} : ∀ (r fuel i : Nat), r < fuel →
    pyFits t k ((lcg t.length)^[r] i) = true → ∃ j, pyProbe t k fuel i 0 = some j := by
  intro r
  induction r with
  | zero =>
    intro fuel i hr h
    obtain ⟨fuel, rfl⟩ := Nat.exists_eq_succ_of_ne_zero (by omega : fuel ≠ 0)
    rw [pyProbe]
    obtain ⟨l, hl⟩ := pyRound_head t.length i
    rw [hl, List.find?_cons_of_pos (by exact h)]
    exact ⟨i, rfl⟩
  | succ r ih =>
    intro fuel i hr h
    obtain ⟨fuel, rfl⟩ := Nat.exists_eq_succ_of_ne_zero (by omega : fuel ≠ 0)
    rw [pyProbe]
    split
    · exact ⟨_, rfl⟩
    · exact ih fuel _ (by omega) h

theorem pyProbe_some {t : PyTable} {m : Nat} (hm : t.length = 2 ^ (m + 1)) {k s : Nat}
    (hs : pyFits t k s = true) (hsl : s < t.length) : ∀ (p fuel i : Nat), i < t.length → p + t.length ≤ fuel →
    ∃ j, pyProbe t k fuel i p = some j := by
  intro p
  induction p using Nat.strong_induction_on with
  | _ p ih =>
    intro fuel i hi hf
    rcases Nat.eq_zero_or_pos p with rfl | hp
    · obtain ⟨r, hr, e⟩ := lcg_covers (m := m) i s (hm ▸ hi) (hm ▸ hsl)
      refine pyProbe_lcg r fuel i (by rw [← hm] at hr; omega) ?_
      rw [hm, e]; exact hs
    · obtain ⟨fuel, rfl⟩ := Nat.exists_eq_succ_of_ne_zero (by omega : fuel ≠ 0)
      rw [pyProbe]
      split
      · exact ⟨_, rfl⟩
      · exact ih (p / 32) (by omega) fuel _ (Nat.mod_lt _ (by omega)) (by omega)

theorem pyProbe_fits {t : PyTable} {k : Nat} : ∀ (fuel i p j : Nat), pyProbe t k fuel i p = some j →
    pyFits t k j = true := by
  intro fuel
  induction fuel with
  | zero => intro i p j h; cases h
  | succ fuel ih =>
    intro i p j h
    rw [pyProbe] at h
    split at h
    · rename_i j' hj
      cases h
      exact List.find?_some hj
    · exact ih _ _ _ h

/-- Filling a free slot with another key does not change where a stored key is found. -/
theorem find_set {t : PyTable} {k v j' : Nat} (hfree : t[j']? = some none) {j : Nat}
    (hj : t[j]? = some (some v)) : ∀ l : List Nat,
    (l.find? (pyFits t v) = some j → l.find? (pyFits (t.set j' (some k)) v) = some j) ∧
    (l.find? (pyFits t v) = none → l.find? (pyFits (t.set j' (some k)) v) = none) := by
  have hlt : j' < t.length := (List.getElem?_eq_some_iff.1 hfree).1
  have hat : ∀ x, x ≠ j' → pyFits (t.set j' (some k)) v x = pyFits t v x := by
    intro x hx
    unfold pyFits
    rw [List.getElem?_set_ne (Ne.symm hx)]
  have hself : pyFits t v j' = true := by simp [pyFits, hfree]
  have hne : j ≠ j' := by rintro rfl; rw [hfree] at hj; cases hj
  intro l
  induction l with
  | nil => simp
  | cons x l ih =>
    by_cases hx : x = j'
    · subst hx
      rw [List.find?_cons_of_pos hself]
      constructor
      · intro h; cases h; exact absurd rfl hne
      · intro h; cases h
    · by_cases hp : pyFits t v x = true
      · rw [List.find?_cons_of_pos hp, List.find?_cons_of_pos (by rw [hat x hx]; exact hp)]
        exact ⟨id, fun h => by cases h⟩
      · rw [List.find?_cons_of_neg hp, List.find?_cons_of_neg (by rw [hat x hx]; exact hp)]
        exact ih

theorem pyProbe_set {t : PyTable} {k v j' : Nat} (hfree : t[j']? = some none) {j : Nat}
    (hj : t[j]? = some (some v)) : ∀ (fuel i p : Nat), pyProbe t v fuel i p = some j →
    pyProbe (t.set j' (some k)) v fuel i p = some j := by
  intro fuel
  induction fuel with
  | zero => intro i p h; cases h
  | succ fuel ih =>
    intro i p h
    rw [pyProbe] at h ⊢
    rw [List.length_set]
    have hs := find_set (k := k) hfree hj (pyRound t.length i)
    cases hf : (pyRound t.length i).find? (pyFits t v) with
    | some x =>
      rw [hf] at h
      cases h
      rw [hs.1 hf]
    | none =>
      rw [hf] at h
      rw [hs.2 hf]
      exact ih _ _ h

/-- A key just stored is found where it was put. -/
theorem find_put {t : PyTable} {k j : Nat} (hj : j < t.length) (hf : pyFits t k j = true) : ∀ l : List Nat,
    l.find? (pyFits (t.set j (some k)) k) = l.find? (pyFits t k) := by
  have hat : ∀ x, pyFits (t.set j (some k)) k x = pyFits t k x := by
    intro x
    by_cases hx : x = j
    · subst hx
      rw [hf]; simp [pyFits, hj]
    · unfold pyFits
      rw [List.getElem?_set_ne (Ne.symm hx)]
  intro l
  induction l with
  | nil => rfl
  | cons x l ih =>
    rw [List.find?_cons, List.find?_cons, hat, ih]

theorem pyProbe_put {t : PyTable} {k j : Nat} (hj : j < t.length) (hf : pyFits t k j = true) : ∀ (fuel i p : Nat),
    pyProbe (t.set j (some k)) k fuel i p = pyProbe t k fuel i p := by
  intro fuel
  induction fuel with
  | zero => intro i p; rfl
  | succ fuel ih =>
    intro i p
    rw [pyProbe, pyProbe, List.length_set]
    have e := find_put hj hf (pyRound t.length i)
    unfold pyFits at e
    rw [e]
    split
    · rfl
    · exact ih _ _

/-! ## Tables -/

/-- The number of slots is a power of two, and every key is where it is looked for. -/
structure PyInv (t : PyTable) : Prop where
  size : ∃ m, t.length = 2 ^ (m + 3)
  found : ∀ (j : Nat) v, t[j]? = some (some v) → pyProbe t v (v + t.length) (v % t.length) v = some j

theorem pyInv_replicate (m : Nat) : PyInv (List.replicate (2 ^ (m + 3)) none) := by
  refine ⟨⟨m, by simp⟩, ?_⟩
  intro j v hv
  rw [List.getElem?_replicate] at hv
  split at hv <;> simp at hv

theorem pyFill_le (t : PyTable) : pyFill t ≤ t.length := List.length_filterMap_le _ _

/-- A table that is not full has a free slot. -/
theorem exists_free {t : PyTable} (h : pyFill t < t.length) : ∃ j : Nat, t[j]? = some none := by
  induction t with
  | nil => simp [pyFill] at h
  | cons a t ih =>
    cases a with
    | none => exact ⟨0, rfl⟩
    | some x =>
      obtain ⟨j, hj⟩ := ih (by simp [pyFill] at h ⊢; omega)
      exact ⟨j + 1, by simpa using hj⟩

/-- What storing a key does. -/
theorem pyPut_spec {t : PyTable} (h : PyInv t) (hfree : pyFill t < t.length) (k : Nat) :
    ∃ j, j < t.length ∧ pyFits t k j = true ∧ pyPut t k = t.set j (some k) ∧ PyInv (pyPut t k) ∧
      (some k ∈ t → t[j]? = some (some k)) := by
  obtain ⟨m, hm⟩ := h.size
  obtain ⟨s, hs⟩ := exists_free hfree
  have hsl := (List.getElem?_eq_some_iff.1 hs).1
  obtain ⟨j, hj⟩ := pyProbe_some (t := t) (m := m + 2) hm (k := k) (s := s) (by simp [pyFits, hs]) hsl k
    (k + t.length) (k % t.length) (Nat.mod_lt _ (by omega)) le_rfl
  have hfit := pyProbe_fits _ _ _ _ hj
  have hjl : j < t.length := by
    by_contra hn
    simp only [pyFits, List.getElem?_eq_none (not_lt.1 hn)] at hfit
    simp at hfit
  have hput : pyPut t k = t.set j (some k) := by
    unfold pyPut; rw [hj]
  refine ⟨j, hjl, hfit, hput, ?_, ?_⟩
  · rw [hput]
    rcases (by simpa [pyFits] using hfit : t[j]? = some none ∨ t[j]? = some (some k)) with hfree' | e
    · refine ⟨⟨m, by simpa using hm⟩, ?_⟩
      intro x v hv
      rw [List.length_set]
      by_cases hx : x = j
      · subst hx
        rw [List.getElem?_set_self hjl] at hv
        cases hv
        rw [pyProbe_put hjl hfit]
        exact hj
      · rw [List.getElem?_set_ne (Ne.symm hx)] at hv
        have hf := h.found x v hv
        exact pyProbe_set hfree' hv _ _ _ hf
    · have : t.set j (some k) = t := by
        obtain ⟨_, e'⟩ := List.getElem?_eq_some_iff.1 e
        rw [← e']; exact List.set_getElem_self _
      rw [this]; exact h
  · intro hmem
    obtain ⟨x, hx⟩ := List.mem_iff_getElem?.1 hmem
    have hf := h.found x k hx
    rw [hj] at hf
    cases hf
    exact hx

theorem mem_keys {t : PyTable} {v : Nat} : v ∈ t.filterMap id ↔ some v ∈ t := by simp

theorem mem_pyPut {t : PyTable} (h : PyInv t) (hfree : pyFill t < t.length) (k v : Nat) :
    some v ∈ pyPut t k ↔ some v ∈ t ∨ v = k := by
  obtain ⟨j, hj, hf, e, -, -⟩ := pyPut_spec h hfree k
  rw [e, List.mem_iff_getElem?, List.mem_iff_getElem?]
  constructor
  · rintro ⟨x, hx⟩
    by_cases hxj : x = j
    · subst hxj
      rw [List.getElem?_set_self hj] at hx
      cases hx; exact Or.inr rfl
    · rw [List.getElem?_set_ne (Ne.symm hxj)] at hx
      exact Or.inl ⟨x, hx⟩
  · rintro (⟨x, hx⟩ | rfl)
    · by_cases hxj : x = j
      · subst hxj
        rcases (by simpa [pyFits] using hf : t[x]? = some none ∨ t[x]? = some (some k)) with e' | e'
        · rw [e'] at hx; cases hx
        · rw [e'] at hx; cases hx
          exact ⟨x, List.getElem?_set_self hj⟩
      · exact ⟨x, by rw [List.getElem?_set_ne (Ne.symm hxj)]; exact hx⟩
    · exact ⟨j, List.getElem?_set_self hj⟩

theorem keys_nodup {t : PyTable} (h : PyInv t) : (t.filterMap id).Nodup := by
  have key : ∀ (l : PyTable) (o : Nat), (∀ (j : Nat) v, l[j]? = some (some v) → t[o + j]? = some (some v)) →
      (l.filterMap id).Nodup := by
    intro l
    induction l with
    | nil => intro o _; simp
    | cons a l ih =>
      intro o hl
      have ih' := ih (o + 1) fun j v hv => by
        have := hl (j + 1) v (by simpa using hv)
        rwa [show o + (j + 1) = o + 1 + j by omega] at this
      cases a with
      | none => simpa using ih'
      | some x =>
        rw [List.filterMap_cons]
        simp only [id_eq, List.nodup_cons]
        refine ⟨fun hm => ?_, ih'⟩
        obtain ⟨j, hj⟩ := List.mem_iff_getElem?.1 (mem_keys.1 hm)
        have h1 := h.found _ _ (hl (j + 1) x (by simpa using hj))
        have h2 := h.found _ _ (hl 0 x (by simp))
        rw [h1] at h2
        have := Option.some.inj h2
        omega
  exact key t 0 fun j v hv => by simpa using hv

/-- The number of keys is that of any list without repetitions of the same keys. -/
theorem pyFill_eq {t : PyTable} (h : PyInv t) {l : List Nat} (hl : l.Nodup) (hm : ∀ v, v ∈ l ↔ some v ∈ t) :
    pyFill t = l.length := by
  apply List.Perm.length_eq
  rw [List.perm_ext_iff_of_nodup (keys_nodup h) hl]
  intro v
  rw [mem_keys, hm]

theorem pyFill_put {t : PyTable} (h : PyInv t) (hfree : pyFill t < t.length) (k : Nat) :
    pyFill (pyPut t k) = if some k ∈ t then pyFill t else pyFill t + 1 := by
  obtain ⟨j, hj, hf, e, hi, hk⟩ := pyPut_spec h hfree k
  have hm := mem_pyPut h hfree k
  split
  · rename_i hmem
    refine pyFill_eq hi (keys_nodup h) fun v => ?_
    rw [hm, mem_keys]
    constructor
    · exact Or.inl
    · rintro (h | rfl)
      · exact h
      · exact hmem
  · rename_i hmem
    refine pyFill_eq (l := k :: t.filterMap id) hi ?_ fun v => ?_
    · exact List.nodup_cons.2 ⟨fun h' => hmem (mem_keys.1 h'), keys_nodup h⟩
    · rw [hm, List.mem_cons, mem_keys, or_comm]

/-- The keys below the number of slots are in the slots of their own number, if all are. -/
def PyOwn (t : PyTable) : Prop :=
  (∀ v, some v ∈ t → v < t.length) → ∀ (j : Nat) v, t[j]? = some (some v) → v = j

theorem pyPut_own {t : PyTable} (hown : ∀ (j : Nat) v, t[j]? = some (some v) → v = j) {k : Nat} (hk : k < t.length) :
    ∀ (j : Nat) v, (pyPut t k)[j]? = some (some v) → v = j := by
  have hfits : pyFits t k k = true := by
    unfold pyFits
    rw [List.getElem?_eq_getElem hk]
    cases hv : t[k] with
    | none => simp
    | some v =>
      have := hown k v (by rw [List.getElem?_eq_getElem hk, hv])
      simp [this]
  have e : pyPut t k = t.set k (some k) := by
    unfold pyPut
    rw [Nat.mod_eq_of_lt hk]
    obtain ⟨f, hf⟩ := Nat.exists_eq_succ_of_ne_zero (by omega : k + t.length ≠ 0)
    rw [hf, pyProbe]
    obtain ⟨l, hl⟩ := pyRound_head t.length k
    rw [hl, List.find?_cons_of_pos (by exact hfits)]
  rw [e]
  intro j v hv
  by_cases hj : j = k
  · subst hj
    rw [List.getElem?_set_self hk] at hv
    cases hv; rfl
  · rw [List.getElem?_set_ne (Ne.symm hj)] at hv
    exact hown j v hv

theorem length_pyPut (t : PyTable) (k : Nat) : (pyPut t k).length = t.length := by
  unfold pyPut
  split
  · exact List.length_set
  · rfl

theorem pyPuts_spec (ks : List Nat) : ∀ {t : PyTable}, PyInv t → pyFill t + ks.length < t.length →
    PyInv (ks.foldl pyPut t) ∧ (ks.foldl pyPut t).length = t.length ∧
    (∀ v, some v ∈ ks.foldl pyPut t ↔ some v ∈ t ∨ v ∈ ks) ∧
    ((∀ (j : Nat) v, t[j]? = some (some v) → v = j) → (∀ k ∈ ks, k < t.length) →
      ∀ (j : Nat) v, (ks.foldl pyPut t)[j]? = some (some v) → v = j) := by
  induction ks with
  | nil => intro t h _; exact ⟨h, rfl, by simp, fun h _ => h⟩
  | cons k ks ih =>
    intro t h hlen
    rw [List.length_cons] at hlen
    obtain ⟨j, -, -, -, hi, -⟩ := pyPut_spec h (by omega) k
    have hm := mem_pyPut h (by omega) k
    have hfill := pyFill_put h (by omega) k
    obtain ⟨h1, h2, h3, h4⟩ := ih hi (by rw [length_pyPut, hfill]; split <;> omega)
    refine ⟨h1, by rw [List.foldl_cons, h2, length_pyPut], fun v => ?_, fun hown hlt => ?_⟩
    · rw [List.foldl_cons, h3, hm, List.mem_cons, or_assoc]
    · rw [List.foldl_cons]
      exact h4 (pyPut_own hown (hlt k (by simp))) fun x hx => by
        rw [length_pyPut]; exact hlt x (List.mem_cons_of_mem _ hx)

theorem pyNewSize_spec (m : Nat) : ∀ (fuel e : Nat), ∃ e', pyNewSize m fuel (2 ^ e) = 2 ^ e' ∧ e ≤ e' ∧
    (m < 2 ^ (e + fuel) → m < 2 ^ e') := by
  intro fuel
  induction fuel with
  | zero => intro e; exact ⟨e, rfl, le_rfl, id⟩
  | succ fuel ih =>
    intro e
    rw [pyNewSize]
    split
    · rename_i h; exact ⟨e, rfl, le_rfl, fun _ => h⟩
    · obtain ⟨e', h1, h2, h3⟩ := ih (e + 1)
      rw [show 2 * 2 ^ e = 2 ^ (e + 1) by ring]
      exact ⟨e', h1, by omega, fun h => h3 (by rwa [show e + 1 + fuel = e + (fuel + 1) by omega])⟩

theorem pyGrown_spec (c : Nat) : ∃ m, pyGrown c = 2 ^ (m + 3) ∧ c * 2 < pyGrown c := by
  obtain ⟨e, h1, h2, h3⟩ := pyNewSize_spec (c * if 50000 < c then 2 else 4) (c * 4) 3
  obtain ⟨m, rfl⟩ := Nat.exists_eq_add_of_le h2
  refine ⟨m, by rw [pyGrown]; exact h1.trans (by rw [Nat.add_comm]), ?_⟩
  have h4 : c * 4 < 2 ^ (3 + c * 4) :=
    lt_of_lt_of_le (Nat.lt_two_pow_self) (Nat.pow_le_pow_right (by omega) (by omega))
  have h := h3 (by split <;> omega)
  rw [pyGrown]
  refine lt_of_le_of_lt ?_ (lt_of_lt_of_eq h h1.symm)
  split <;> omega

/-- The number of slots of a set of `c` elements. -/
def pySize : Nat → Nat
  | 0 => 8
  | c + 1 => if (pySize c - 1) * 3 ≤ (c + 1) * 5 then pyGrown (c + 1) else pySize c

theorem pySize_load (c : Nat) : c * 5 < (pySize c - 1) * 3 ∧ 8 ≤ pySize c := by
  induction c with
  | zero => simp [pySize]
  | succ c ih =>
    rw [pySize]
    split
    · obtain ⟨m, h1, h2⟩ := pyGrown_spec (c + 1)
      have : 8 ≤ 2 ^ (m + 3) := by
        rw [pow_add]; have := Nat.one_le_two_pow (n := m); omega
      omega
    · omega

theorem pySize_step (c : Nat) : pySize c ≤ pySize (c + 1) := by
  have h := pySize_load c
  rw [pySize]
  split
  · obtain ⟨m, h1, h2⟩ := pyGrown_spec (c + 1)
    omega
  · exact le_rfl

theorem pySize_mono {a b : Nat} (h : a ≤ b) : pySize a ≤ pySize b := monotone_nat_of_le_succ pySize_step h

/-- The state of a set while elements are added. -/
structure PySet (t : PyTable) : Prop where
  inv : PyInv t
  size : t.length = pySize (pyFill t)
  own : PyOwn t

theorem pyAdd_spec {t : PyTable} (h : PySet t) (k : Nat) :
    PySet (pyAdd t k) ∧ ∀ v, some v ∈ pyAdd t k ↔ some v ∈ t ∨ v = k := by
  have hload := pySize_load (pyFill t)
  have hfree : pyFill t < t.length := by rw [h.size]; omega
  obtain ⟨j, hj, hf, e, hi, hk⟩ := pyPut_spec h.inv hfree k
  have hm := mem_pyPut h.inv hfree k
  have hfill := pyFill_put h.inv hfree k
  have hlen := length_pyPut t k
  unfold pyAdd
  simp only
  split
  · rename_i hc
    have hnew : some k ∉ t := by
      intro hmem
      rw [hfill, if_pos hmem, hlen, h.size] at hc
      omega
    have hfill' : pyFill (pyPut t k) = pyFill t + 1 := by rw [hfill, if_neg hnew]
    obtain ⟨m, g1, g2⟩ := pyGrown_spec (pyFill (pyPut t k))
    have hz : pyFill (List.replicate (2 ^ (m + 3)) (none : Option Nat)) = 0 := by simp [pyFill]
    unfold pyResize
    rw [g1]
    obtain ⟨p1, p2, p3, p4⟩ := pyPuts_spec ((pyPut t k).filterMap id) (pyInv_replicate m)
      (by rw [hz, List.length_replicate]; show 0 + pyFill (pyPut t k) < _; omega)
    have p3' : ∀ v, some v ∈ ((pyPut t k).filterMap id).foldl pyPut (List.replicate (2 ^ (m + 3)) none) ↔
        some v ∈ pyPut t k := by
      intro v
      rw [p3, mem_keys]
      simp
    have hfin : pyFill (((pyPut t k).filterMap id).foldl pyPut (List.replicate (2 ^ (m + 3)) none)) =
        pyFill t + 1 := by
      rw [← hfill']
      exact pyFill_eq p1 (keys_nodup hi) fun v => by rw [p3', mem_keys]
    refine ⟨⟨p1, ?_, ?_⟩, fun v => by rw [p3', hm]⟩
    · rw [p2, List.length_replicate, hfin, pySize, if_pos, ← g1, hfill']
      rw [hlen, h.size, hfill'] at hc
      exact hc
    · intro hlt
      rw [p2] at hlt
      refine p4 (fun j v hv => ?_) fun x hx => hlt x ((p3 x).2 (Or.inr hx))
      rw [List.getElem?_replicate] at hv
      split at hv <;> simp at hv
  · rename_i hc
    refine ⟨⟨hi, ?_, ?_⟩, hm⟩
    · rw [hlen, hfill]
      split
      · exact h.size
      · rename_i hnew
        rw [hfill, if_neg hnew, hlen, h.size] at hc
        rw [pySize, if_neg hc, h.size]
    · intro hlt
      rw [hlen] at hlt
      exact pyPut_own (h.own fun v hv => hlt v ((hm v).2 (Or.inl hv))) (hlt k ((hm k).2 (Or.inr rfl)))

theorem pyEmpty_spec : PySet (List.replicate 8 none) := by
  refine ⟨pyInv_replicate 0, by simp [pyFill, pySize], ?_⟩
  intro _ j v hv
  rw [List.getElem?_replicate] at hv
  split at hv <;> simp at hv

theorem pyAdds_spec (ks : List Nat) : ∀ {t : PyTable}, PySet t →
    PySet (ks.foldl pyAdd t) ∧ ∀ v, some v ∈ ks.foldl pyAdd t ↔ some v ∈ t ∨ v ∈ ks := by
  induction ks with
  | nil => intro t h; exact ⟨h, by simp⟩
  | cons k ks ih =>
    intro t h
    obtain ⟨a1, a2⟩ := pyAdd_spec h k
    obtain ⟨h1, h2⟩ := ih a1
    refine ⟨h1, fun v => ?_⟩
    rw [List.foldl_cons, h2, a2, List.mem_cons, or_assoc]

theorem pySetList_mem (xs : List Nat) (v : Nat) : v ∈ pySetList xs ↔ v ∈ xs := by
  unfold pySetList
  rw [mem_keys, (pyAdds_spec xs pyEmpty_spec).2]
  simp

/-- CPython's order of sets of non-negative integers. -/
def pyOrder : SetOrder Nat where
  list := pySetList
  nodup xs := keys_nodup (pyAdds_spec xs pyEmpty_spec).1.inv
  mem_iff := pySetList_mem

theorem pyKeys_pairwise (t : PyTable) (o : Nat)
    (own : ∀ (j : Nat) v, t[j]? = some (some v) → v = o + j) :
    (t.filterMap id).Pairwise (· < ·) ∧ ∀ v ∈ t.filterMap id, o ≤ v := by
  induction t generalizing o with
  | nil => simp
  | cons a t ih =>
    obtain ⟨h1, h2⟩ := ih (o + 1) (fun j v hv => by
      have := own (j + 1) v (by simpa using hv); omega)
    cases a with
    | none => exact ⟨by simpa using h1, fun v hv => by
        have := h2 v (by simpa using hv); omega⟩
    | some x =>
      have hx := own 0 x (by simp)
      simp only [List.filterMap_cons, id_eq, List.pairwise_cons, List.mem_cons]
      refine ⟨⟨fun v hv => ?_, h1⟩, ?_⟩
      · have := h2 v hv; omega
      · rintro v (rfl | hv)
        · omega
        · have := h2 v hv; omega

/-- CPython iterates a set of numbers in ascending order if they are below the number of slots of the table. -/
theorem pySetList_ascending (xs : List Nat) (h : ∀ x ∈ xs, x < pySize (pySetList xs).length) :
    (pySetList xs).Pairwise (· < ·) := by
  have hs := pyAdds_spec xs pyEmpty_spec
  refine (pyKeys_pairwise _ 0 fun j v hv => ?_).1
  rw [Nat.zero_add]
  refine hs.1.own (fun v hv => ?_) j v hv
  rw [hs.1.size]
  exact h v ((pySetList_mem xs v).1 (mem_keys.2 hv))

theorem pyOrder_ascending : AscendingBelow pyOrder 8 := by
  intro xs h
  exact pySetList_ascending xs fun x hx => lt_of_lt_of_le (h x hx) (pySize_load _).2

theorem pySize_room (m : Nat) : m + 4 ≤ pySize m := by
  have := pySize_load m
  omega

/-- Sets of at most one or at least `m` numbers come in ascending order if the numbers are below the number of slots of
a table of `m` elements; this holds for `m + 4` numbers. -/
theorem pyOrder_sets {m k : Nat} (hk : k ≤ pySize m) : AscendingSets pyOrder 1 m k := by
  intro xs h hl
  rcases hl with hl | hl
  · match e : pyOrder.list xs, hl with
    | [], _ => exact List.Pairwise.nil
    | [_], _ => exact List.pairwise_singleton _ _
    | _ :: _ :: _, hl => simp at hl
  · exact pySetList_ascending xs fun x hx => lt_of_lt_of_le (h x hx) (hk.trans (pySize_mono hl))

/-- … but not in general: the order of `list(set([8, 0]))` is `[8, 0]`. -/
theorem pySetList_eight : pySetList [8, 0] = [8, 0] := by decide

end OM
