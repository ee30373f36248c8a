import Verif.Model.Iterate
import Verif.Props.Getitem

/-! # C95: loops over variables -/

namespace OM

theorem pyRange_one (i : Nat) : pyRange i (i + 1) 1 = [(i : Int)] := by
  have : rangeLen (i : Int) ((i : Int) + 1) 1 = 1 := by
    unfold rangeLen
    simp
  simp [pyRange, this]

theorem keyLists_int (i : Nat) : keyLists [((i : Int), (i : Int) + 1, none)] = .ok [[(i : Int)]] := by
  have h1 : sliceToList (some (i : Int)) (some ((i : Int) + 1)) none none = .ok [(i : Int)] := by
    unfold sliceToList
    simp only [Option.getD_some, Option.getD_none]
    rw [if_neg (by omega)]
    unfold checkedRange
    rw [pyRange_one]
    simp
  simp [keyLists, h1, Except.map]

theorem entryFor_in (n m i : Nat) (rest : List Nat) (hi : i < n) :
    entryFor [n] (m :: rest) [((i : Int), (i : Int) + 1, none)] =
      .ok ((npSlice m (some (i : Int)) (some ((i : Int) + 1)) none).length :: rest, [i]) := by
  have hr : ravelGrid [n] [[(i : Int)]] = .ok [i] := by
    unfold ravelGrid
    rw [if_neg (by simp), if_neg]
    · simp [cartesian, ravel, prodShape]
    · simp
      omega
  unfold entryFor
  rw [keyLists_int]
  simp only [hr]
  rw [if_neg]
  · simp [npIndexShape, Except.map]
  · simp [prodShape]
    omega

theorem entryFor_out (shape valShape : List Nat) (i : Nat) (h : ∀ n, shape = [n] → n ≤ i) :
    entryFor shape valShape [((i : Int), (i : Int) + 1, none)] = .error .valueError := by
  have hr : ravelGrid shape [[(i : Int)]] = .error .valueError := by
    unfold ravelGrid
    by_cases hl : shape.length = 1
    · obtain ⟨n, rfl⟩ := List.length_eq_one_iff.1 hl
      rw [if_neg (by simp), if_pos]
      have := h n rfl
      simp
      omega
    · rw [if_pos (by simpa using Ne.symm hl)]
  unfold entryFor
  rw [keyLists_int]
  simp only [hr]

/-- A variable that can be indexed: its first use did not fail, or it was never used and has entries. -/
def IVar.Usable (v : IVar) : Prop := (∃ d, v.decomp = some d) ∨ v.called = false

theorem firstUse_usable {v : IVar} (h : v.Ok) (hu : v.Usable) {m : Nat} {rest : List Nat} (hv : v.valShape = m :: rest) {i : Nat}
    (hi : i < m ∨ ∃ d, v.decomp = some d) :
    ∃ v1 d, firstUse v (.one (.int i)) = (v1, none) ∧ v1.shape = v.shape ∧ v1.valShape = v.valShape ∧ v1.decomp = some d ∧
      ∀ p ∈ d, entryFor v.shape v.valShape p.1 = .ok (p.2.shape, p.2.src) := by
  have hcase : (∃ d, v.decomp = some d) ∨ (v.called = false ∧ i < m) := by
    rcases hu with hd | hc
    · exact Or.inl hd
    · rcases hi with hi | hd
      · exact Or.inr ⟨hc, hi⟩
      · exact Or.inl hd
  rcases hcase with ⟨d, hd⟩ | ⟨hc, hi⟩
  · have hc : v.called = true := by
      by_contra hc
      rw [h.called (by simpa using hc)] at hd
      cases hd
    refine ⟨v, d, ?_, rfl, rfl, hd, h.entries d hd⟩
    unfold firstUse
    rw [if_pos hc]
  · refine ⟨{ v with called := true, decomp := some [], fresh := v.fresh + 1 }, [], ?_, rfl, rfl, rfl, by simp⟩
    unfold firstUse
    rw [if_neg (by simp [hc]), hv]
    show (match npIndexShape (m :: rest) [.int (i : Int)] with
      | .error e => _
      | .ok _ => _) = _
    rw [npIndexShape, if_pos (by omega)]
    simp [npIndexShape]

/-- Reading one element of a vector. -/
theorem read_in {v : IVar} (h : v.Ok) (hu : v.Usable) {n m : Nat} {rest : List Nat} (hs : v.shape = [n])
    (hv : v.valShape = m :: rest) {i : Nat} (hn : i < n) (hi : i < m ∨ ∃ d, v.decomp = some d) :
    ∃ v1 ex d, getItem v (.one (.int i)) = (v1, .ok ex) ∧ v1.decomp = some d ∧ ex.src = [i] ∧
      ex.shape = (npSlice m (some (i : Int)) (some ((i : Int) + 1)) none).length :: rest := by
  obtain ⟨w, d, hf, w1, w2, w3, w4⟩ := firstUse_usable h hu hv hi
  have he := entryFor_in n m i rest hn
  rw [← hs, ← hv] at he
  unfold getItem
  rw [hf]
  simp only [normKey, normItem, w3]
  rw [getDecomposed_eq]
  cases hfd : d.find? (fun p => p.1 == [((i : Int), (i : Int) + 1, none)]) with
  | some p =>
    have hp := w4 p (List.mem_of_find?_eq_some hfd)
    have hk : p.1 = [((i : Int), (i : Int) + 1, none)] := by simpa using List.find?_some hfd
    rw [hk, he] at hp
    simp only [Except.ok.injEq, Prod.mk.injEq] at hp
    exact ⟨w, p.2, d, rfl, w3, hp.2.symm, hp.1.symm⟩
  | none =>
    simp only [w1, w2, he]
    exact ⟨_, _, _, rfl, rfl, rfl, rfl⟩

/-- Reading beyond the end of a vector, or with one integer from an array of another rank. -/
theorem read_out {v : IVar} (h : v.Ok) (hu : v.Usable) {m : Nat} {rest : List Nat} (hv : v.valShape = m :: rest) {i : Nat}
    (hn : ∀ n, v.shape = [n] → n ≤ i) (hi : i < m ∨ ∃ d, v.decomp = some d) :
    ∃ v1, getItem v (.one (.int i)) = (v1, .error .valueError) := by
  obtain ⟨w, d, hf, w1, w2, w3, w4⟩ := firstUse_usable h hu hv hi
  have he := entryFor_out v.shape v.valShape i hn
  unfold getItem
  rw [hf]
  simp only [normKey, normItem, w3]
  rw [getDecomposed_eq]
  cases hfd : d.find? (fun p => p.1 == [((i : Int), (i : Int) + 1, none)]) with
  | some p =>
    have hp := w4 p (List.mem_of_find?_eq_some hfd)
    have hk : p.1 = [((i : Int), (i : Int) + 1, none)] := by simpa using List.find?_some hfd
    rw [hk, he] at hp
    cases hp
  | none =>
    simp only [w1, w2, he]
    exact ⟨_, rfl⟩

/-- The loop over a vector from position `i` on, once the variable has been indexed. -/
theorem iterate_vector {n m : Nat} {rest : List Nat} (k : Nat) : ∀ {v : IVar} {i : Nat}, v.Ok → v.Usable → v.shape = [n] →
    v.valShape = m :: rest → i + k = n → (i < m ∨ ∃ d, v.decomp = some d) → ∀ calls,
    (k < calls → (iterate calls v i).2.2 = .raised .valueError) ∧
    (calls ≤ k → (iterate calls v i).2.2 = .goesOn) ∧
    (iterate calls v i).2.1.map (·.src) = (List.range (min calls k)).map fun j => [i + j] := by
  induction k with
  | zero =>
    intro v i h hu hs hv hn hi calls
    cases calls with
    | zero => simp [iterate]
    | succ c =>
      obtain ⟨v1, hr⟩ := read_out h hu hv (i := i) (fun n' hn' => by rw [hs] at hn'; cases hn'; omega) hi
      simp [iterate, hr]
  | succ k ih =>
    intro v i h hu hs hv hn hi calls
    cases calls with
    | zero => simp [iterate]
    | succ c =>
      obtain ⟨v1, ex, d, hr, hd, h1, -⟩ := read_in h hu hs hv (i := i) (by omega) hi
      have f := getItem_facts h (.one (.int i))
      rw [hr] at f
      obtain ⟨a1, a2, a3⟩ := ih (v := v1) (i := i + 1) f.ok (Or.inl ⟨d, hd⟩) (f.shape.trans hs) (f.valShape.trans hv)
        (by omega) (Or.inr ⟨d, hd⟩) c
      refine ⟨fun hc => ?_, fun hc => ?_, ?_⟩
      · simpa [iterate, hr] using a1 (by omega)
      · simpa [iterate, hr] using a2 (by omega)
      · have hm : min (c + 1) (k + 1) = min c k + 1 := by omega
        rw [hm, List.range_succ_eq_map]
        simp only [iterate, hr, List.map_cons, h1, a3, List.map_map]
        congr 1
        apply List.map_congr_left
        intro j _
        simp
        omega

/-- A variable after any reads, the first of which did not fail. -/
theorem usable_after {shape valShape : List Nat} (history : List Key)
    (hfirst : ∀ k ∈ history.head?, ∃ s, npIndexShape valShape k.items = .ok s) :
    (getItems (IVar.new shape valShape) history).Usable := by
  cases history with
  | nil => exact Or.inr rfl
  | cons k0 ks =>
    left
    obtain ⟨s0, hs0⟩ := hfirst k0 rfl
    have f := getItem_facts (ivar_new_ok shape valShape) k0
    obtain ⟨d, hd⟩ : ∃ d, (getItem (IVar.new shape valShape) k0).1.decomp = some d := by
      have hfu : firstUse (IVar.new shape valShape) k0 =
          (⟨shape, valShape, true, some [], 1⟩, none) := by
        unfold firstUse
        rw [if_neg (by simp [IVar.new])]
        show (match npIndexShape valShape k0.items with
          | .error e => _
          | .ok _ => _) = _
        rw [hs0]
        rfl
      unfold getItem
      rw [hfu]
      simp only
      cases normKey shape k0 with
      | error e => exact ⟨[], rfl⟩
      | ok k =>
        simp only
        rw [getDecomposed_eq]
        simp only [List.find?_nil]
        cases entryFor shape valShape k with
        | error e => exact ⟨[], rfl⟩
        | ok r => exact ⟨_, rfl⟩
    obtain ⟨m, hm⟩ := (getItems_ok f.ok ks).2.2.2.1 d hd
    exact ⟨_, hm⟩

section
variable {shape : List Nat} {m : Nat} {rest : List Nat} {history : List Key}

/-- **C95**, vectors, exact: after any reads of which the first did not fail, a loop over a vector of length `n` sees `x[0]`, ...,
`x[n - 1]`, one element each and in order, and then raises `ValueError` instead of ending. (`m :: rest` is the shape of
the value the object holds: `[n]` for declared variables, `[1]` for computed ones.) -/
theorem c95_vector (n : Nat) (hm : 1 ≤ m)
    (hfirst : ∀ k ∈ history.head?, ∃ s, npIndexShape (m :: rest) k.items = .ok s) (calls : Nat) (hc : n < calls) :
    (iterate calls (getItems (IVar.new [n] (m :: rest)) history) 0).2.2 = .raised .valueError ∧
    (iterate calls (getItems (IVar.new [n] (m :: rest)) history) 0).2.1.map (·.src) = (List.range n).map fun j => [j] := by
  obtain ⟨i1, i2, i3, _⟩ := getItems_ok (ivar_new_ok [n] (m :: rest)) history
  obtain ⟨h1, _, h3⟩ := iterate_vector (n := n) (m := m) (rest := rest) n (i := 0) i1 (usable_after history hfirst) i2 i3 (by omega)
    (Or.inl (by omega)) calls
  refine ⟨h1 hc, ?_⟩
  rw [h3, Nat.min_eq_right (by omega)]
  simp

/-- **C95**, other ranks: a loop over an array that is not a vector raises `ValueError` at once. -/
theorem c95_rank (hr : shape.length ≠ 1) (hm : 1 ≤ m)
    (hfirst : ∀ k ∈ history.head?, ∃ s, npIndexShape (m :: rest) k.items = .ok s) (calls : Nat) :
    (iterate (calls + 1) (getItems (IVar.new shape (m :: rest)) history) 0).2 = ([], .raised .valueError) := by
  obtain ⟨i1, i2, i3, _⟩ := getItems_ok (ivar_new_ok shape (m :: rest)) history
  obtain ⟨v1, h⟩ := read_out (i := 0) i1 (usable_after history hfirst) i3
    (fun n hn => by rw [i2] at hn; exact absurd (by rw [show shape = [n] from hn]; rfl) hr) (Or.inl (by omega))
  simp only [iterate]
  have h' : getItem (getItems (IVar.new shape (m :: rest)) history) (.one (.int ((0 : Nat) : Int))) = (v1, .error .valueError) := h
  rw [h']
  simp

/-- **C95, refuted** for every declared variable with entries: no loop over it ever ends normally, after any reads. -/
theorem c95_violated (n : Nat) (ns : List Nat) (hn : 1 ≤ n) (history : List Key)
    (hfirst : ∀ k ∈ history.head?, ∃ s, npIndexShape (n :: ns) k.items = .ok s) (calls : Nat) (hc : n < calls) :
    (iterate calls (getItems (IVar.new (n :: ns) (n :: ns)) history) 0).2.2 = .raised .valueError := by
  by_cases hns : ns = []
  · subst hns
    exact (c95_vector n hn hfirst calls hc).1
  · obtain ⟨c, rfl⟩ : ∃ c, calls = c + 1 := ⟨calls - 1, by omega⟩
    rw [c95_rank (by simpa using hns) hn hfirst c]

/-- **C95, refuted** for assignments to several names: `y_1, ..., y_k = x` raises `ValueError` for every variable with entries,
whatever the number of names. -/
theorem c95_unpack (n : Nat) (ns : List Nat) (hn : 1 ≤ n) (history : List Key)
    (hfirst : ∀ k ∈ history.head?, ∃ s, npIndexShape (n :: ns) k.items = .ok s) (k : Nat) :
    unpack (getItems (IVar.new (n :: ns) (n :: ns)) history) k = .error .valueError := by
  have key : (iterate (k + 1) (getItems (IVar.new (n :: ns) (n :: ns)) history) 0).2.2 = .raised .valueError ∨
      (iterate (k + 1) (getItems (IVar.new (n :: ns) (n :: ns)) history) 0).2.2 = .goesOn := by
    by_cases hns : ns = []
    · subst hns
      obtain ⟨i1, i2, i3, _⟩ := getItems_ok (ivar_new_ok [n] [n]) history
      obtain ⟨h1, h2, _⟩ := iterate_vector (n := n) (m := n) (rest := []) n (i := 0) i1 (usable_after history hfirst) i2 i3
        (by omega) (Or.inl (by omega)) (k + 1)
      rcases Nat.lt_or_ge n (k + 1) with hlt | hge
      · exact Or.inl (h1 hlt)
      · exact Or.inr (h2 hge)
    · left
      rw [c95_rank (by simpa using hns) hn hfirst k]
  unfold unpack
  generalize iterate (k + 1) (getItems (IVar.new (n :: ns) (n :: ns)) history) 0 = r at key ⊢
  obtain ⟨v, l, e⟩ := r
  rcases key with rfl | rfl <;> rfl

theorem iterate_empty (ns : List Nat) (calls : Nat) :
    iterate (calls + 1) (IVar.new (0 :: ns) (0 :: ns)) 0 = (⟨0 :: ns, 0 :: ns, true, none, 0⟩, [], .stopped) := by
  have h : npIndexShape (0 :: ns) (Key.one (.int 0)).items = .error .indexError := by simp [Key.items, npIndexShape]
  simp [iterate, getItem, firstUse, IVar.new, h]

/-- **C95**, what holds: a loop over a variable without entries that was never indexed ends at once. -/
theorem c95_empty_partial (ns : List Nat) (calls : Nat) :
    (iterate (calls + 1) (IVar.new (0 :: ns) (0 :: ns)) 0).2 = ([], .stopped) := by
  rw [iterate_empty]

/-- **C95, refuted** for variables without entries: the second loop raises `AttributeError`. -/
theorem c95_empty_again (ns : List Nat) (calls calls' : Nat) :
    (iterate (calls' + 1) (iterate (calls + 1) (IVar.new (0 :: ns) (0 :: ns)) 0).1 0).2 = ([], .raised .attributeError) := by
  rw [iterate_empty]
  simp [iterate, getItem, firstUse, normKey]

end

/-- `a, b = x` for `x` of shape `(2,)`, never used before. -/
example : unpack (IVar.new [2] [2]) 2 = .error .valueError := c95_unpack 2 [] (by decide) [] (by simp) 2

/-- A loop over `x` of shape `(3,)` after `x[1:]` was used. -/
example : (iterate 10 (getItems (IVar.new [3] [3]) [.one (.slice (some 1) none none)]) 0).2.1.map (·.src) = [[0], [1], [2]] :=
  (c95_vector 3 (by decide) (fun k hk => by
    have : k = .one (.slice (some 1) none none) := by simpa using hk.symm
    subst this
    exact ⟨_, rfl⟩) 10 (by decide)).2

end OM
