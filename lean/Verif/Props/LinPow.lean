import Verif.Model.LinPow
import Verif.Lemmas.Arith

/-!
# Sums of products of powers (C71)
-/

namespace OM
open Spec

/-! ## Floats -/

theorem fMul_some (a b : ℝ) : fMul (some a) (some b) = some (a * b) := rfl
theorem fAdd_some (a b : ℝ) : fAdd (some a) (some b) = some (a + b) := rfl

theorem fMul_none (a : Option ℝ) : fMul a none = none := by cases a <;> rfl
theorem fAdd_none (a : Option ℝ) : fAdd a none = none := by cases a <;> rfl

theorem fold_fMul {α : Type} (l : List α) (f : α → Option ℝ) (g : α → ℝ) (h : ∀ a ∈ l, f a = some (g a)) (k : ℝ) :
    l.foldl (fun o a => fMul o (f a)) (some k) = some (k * (l.map g).prod) := by
  induction l generalizing k with
  | nil => simp
  | cons a l ih =>
    rw [List.foldl_cons, h a (by simp), fMul_some, ih fun b hb => h b (by simp [hb])]
    simp [mul_assoc]

theorem fold_fAdd {α : Type} (l : List α) (f : α → Option ℝ) (g : α → ℝ) (h : ∀ a ∈ l, f a = some (g a)) (k : ℝ) :
    l.foldl (fun o a => fAdd o (f a)) (some k) = some (k + (l.map g).sum) := by
  induction l generalizing k with
  | nil => simp
  | cons a l ih =>
    rw [List.foldl_cons, h a (by simp), fAdd_some, ih fun b hb => h b (by simp [hb])]
    simp [add_assoc]

theorem fold_none {α : Type} (op : Option ℝ → Option ℝ → Option ℝ) (h1 : ∀ a, op a none = none)
    (h2 : ∀ a, op none a = none) (l : List α) (f : α → Option ℝ) (k : Option ℝ) (h : k = none ∨ ∃ a ∈ l, f a = none) :
    l.foldl (fun o a => op o (f a)) k = none := by
  induction l generalizing k with
  | nil => simpa using h
  | cons a l ih =>
    rw [List.foldl_cons]
    apply ih
    rcases h with rfl | ⟨b, hb, hf⟩
    · exact .inl (h2 _)
    · rcases List.mem_cons.1 hb with rfl | hb
      · exact .inl (by rw [hf, h1])
      · exact .inr ⟨b, hb, hf⟩

/-- Bases and exponents for which the power is a number. -/
def PowVal (x p : ℝ) : Prop := 0 < x ∨ (x = 0 ∧ 0 ≤ p) ∨ (x ≠ 0 ∧ ∃ n : ℤ, p = n)

theorem npPow_val {x p : ℝ} (h : PowVal x p) : npPow x p = some (x ^ p) := by
  unfold npPow
  by_cases h0 : 0 < x
  · rw [if_pos h0]
  · rw [if_neg h0]
    rcases h with h | ⟨rfl, hp⟩ | ⟨hx, hn⟩
    · exact absurd h h0
    · rw [if_pos rfl, if_neg (by linarith)]
    · rw [if_neg hx, if_pos hn]

theorem powVal_zero (x : ℝ) : PowVal x 0 := by
  by_cases h : x = 0
  · exact .inr (.inl ⟨h, le_rfl⟩)
  · exact .inr (.inr ⟨h, 0, by simp⟩)

theorem PowOk.val {x p : ℝ} (h : PowOk x p) : PowVal x p := by
  rcases h with h | ⟨hn, h⟩
  · exact .inl h
  · by_cases h0 : x = 0
    · exact .inr (.inl ⟨h0, by rcases h with h | h; exacts [absurd h0 h, by linarith]⟩)
    · exact .inr (.inr ⟨h0, hn⟩)

/-- The derivative is a number, too. -/
theorem PowOk.val_pred {x p : ℝ} (h : PowOk x p) : PowVal x (p - 1) := by
  rcases h with h | ⟨⟨n, rfl⟩, h⟩
  · exact .inl h
  · by_cases h0 : x = 0
    · exact .inr (.inl ⟨h0, by rcases h with h | h; exacts [absurd h0 h, by linarith]⟩)
    · exact .inr (.inr ⟨h0, n - 1, by push_cast; rfl⟩)

/-- Near such a point, too. -/
theorem PowOk.near {x p : ℝ} (h : PowOk x p) : ∀ᶠ y in nhds x, PowVal y p := by
  rcases h with h | ⟨hn, h⟩
  · filter_upwards [lt_mem_nhds h] with y hy using .inl hy
  · rcases h with h | h
    · filter_upwards [isOpen_ne.mem_nhds h] with y hy using .inr (.inr ⟨hy, hn⟩)
    · refine Filter.Eventually.of_forall fun y => ?_
      by_cases h0 : y = 0
      · exact .inr (.inl ⟨h0, by linarith⟩)
      · exact .inr (.inr ⟨h0, hn⟩)

/-! ## The variables of a list of terms -/

theorem mem_ivars_inner (d : List (String × ℝ)) (ks : List String) (n : String) :
    n ∈ d.foldl (fun ks p => if p.1 ∈ ks then ks else ks ++ [p.1]) ks ↔ n ∈ ks ∨ ∃ p ∈ d, p.1 = n := by
  induction d generalizing ks with
  | nil => simp
  | cons p d ih =>
    rw [List.foldl_cons, ih]
    split
    · rename_i h
      constructor
      · rintro (h1 | ⟨q, hq, rfl⟩)
        exacts [.inl h1, .inr ⟨q, by simp [hq], rfl⟩]
      · rintro (h1 | ⟨q, hq, rfl⟩)
        · exact .inl h1
        · rcases List.mem_cons.1 hq with rfl | hq
          exacts [.inl h, .inr ⟨q, hq, rfl⟩]
    · simp only [List.mem_append, List.mem_cons, List.not_mem_nil, or_false, exists_eq_or_imp]
      constructor
      · rintro ((h1 | rfl) | h1)
        exacts [.inl h1, .inr (.inl rfl), .inr (.inr h1)]
      · rintro (h1 | rfl | h1)
        exacts [.inl (.inl h1), .inl (.inr rfl), .inr h1]

theorem nodup_ivars_inner (d : List (String × ℝ)) (ks : List String) (h : ks.Nodup) :
    (d.foldl (fun ks p => if p.1 ∈ ks then ks else ks ++ [p.1]) ks).Nodup := by
  induction d generalizing ks with
  | nil => exact h
  | cons p d ih =>
    rw [List.foldl_cons]
    apply ih
    split
    · exact h
    · rename_i hp
      refine List.nodup_append.2 ⟨h, List.nodup_singleton _, ?_⟩
      rintro a ha b hb rfl
      exact hp (List.mem_singleton.1 hb ▸ ha)

theorem ivars_spec (terms : List (ℝ × List (String × ℝ))) :
    (ivars terms).Nodup ∧ ∀ n, n ∈ ivars terms ↔ ∃ t ∈ terms, ∃ p ∈ t.2, p.1 = n := by
  have key : ∀ (l : List (ℝ × List (String × ℝ))) ks, ks.Nodup →
      (l.foldl (fun ks t => t.2.foldl (fun ks p => if p.1 ∈ ks then ks else ks ++ [p.1]) ks) ks).Nodup ∧
      ∀ n, n ∈ l.foldl (fun ks t => t.2.foldl (fun ks p => if p.1 ∈ ks then ks else ks ++ [p.1]) ks) ks ↔
        n ∈ ks ∨ ∃ t ∈ l, ∃ p ∈ t.2, p.1 = n := by
    intro l
    induction l with
    | nil => intro ks h; exact ⟨h, by simp⟩
    | cons t l ih =>
      intro ks h
      obtain ⟨h1, h2⟩ := ih _ (nodup_ivars_inner t.2 ks h)
      refine ⟨h1, fun n => ?_⟩
      rw [List.foldl_cons, h2, mem_ivars_inner]
      simp [or_assoc]
  obtain ⟨h1, h2⟩ := key terms [] List.nodup_nil
  exact ⟨h1, fun n => by rw [ivars, h2]; simp⟩

/-- The power of a variable in a term: zero if it does not occur. -/
noncomputable def powerIn (t : List (String × ℝ)) (n : String) : ℝ := ((t.find? fun p => p.1 == n).map Prod.snd).getD 0

theorem powerIn_mem {t : List (String × ℝ)} (h : (t.map Prod.fst).Nodup) {p : String × ℝ} (hp : p ∈ t) :
    powerIn t p.1 = p.2 := by
  unfold powerIn
  rw [find_name h hp]
  rfl

theorem powerIn_absent {t : List (String × ℝ)} {n : String} (h : ∀ p ∈ t, p.1 ≠ n) : powerIn t n = 0 := by
  unfold powerIn
  rw [List.find?_eq_none.2 fun p hp => by simpa using h p hp]
  rfl

theorem termPowers_eq {terms : List (ℝ × List (String × ℝ))} {names : List String} {k : Nat} (hk : k < terms.length)
    {p : String × Nat} (hp : p ∈ names.zipIdx) : termPowers terms names k p.2 = powerIn terms[k].2 p.1 := by
  have h1 : names[p.2]? = some p.1 := by
    obtain ⟨i, hi, he⟩ := List.getElem_of_mem hp
    rw [List.getElem_zipIdx] at he
    subst he
    simp at hi ⊢
  unfold termPowers powerIn
  rw [List.getElem?_eq_getElem hk, h1]

theorem zipIdx_map_fst {α β : Type} (l : List α) (f : α → β) : l.zipIdx.map (fun p => f p.1) = l.map f := by
  have : l.zipIdx.map (fun p => f p.1) = (l.zipIdx.map Prod.fst).map f := by rw [List.map_map]; rfl
  rw [this]
  simp

theorem prod_names {t : List (String × ℝ)} (h : (t.map Prod.fst).Nodup) {names : List String} (hn : names.Nodup)
    (hs : ∀ p ∈ t, p.1 ∈ names) (x : String → ℝ) :
    (names.map fun n => x n ^ powerIn t n).prod = (t.map fun p => x p.1 ^ p.2).prod := by
  have h1 : (t.map fun p => x p.1 ^ p.2) = (t.map Prod.fst).map fun n => x n ^ powerIn t n := by
    rw [List.map_map]
    apply List.map_congr_left
    intro p hp
    simp [powerIn_mem h hp]
  rw [h1, ← List.prod_toFinset _ hn, ← List.prod_toFinset _ h]
  symm
  apply Finset.prod_subset
  · intro n hn'
    simp only [List.mem_toFinset, List.mem_map] at hn' ⊢
    obtain ⟨p, hp, rfl⟩ := hn'
    exact hs p hp
  · intro n _ hn'
    rw [powerIn_absent, Real.rpow_zero]
    intro p hp he
    exact hn' (by simp only [List.mem_toFinset, List.mem_map]; exact ⟨p, hp, he⟩)

/-! ## Values -/

/-- What the user asks for. -/
noncomputable def linPowValue (o : LinPowOpts) (inp : String → Nat → ℝ) (i : Nat) : ℝ :=
  o.constant.at i + (o.terms.map fun t => t.1 * (t.2.map fun p => inp p.1 i ^ p.2).prod).sum

theorem linPow_setup {o : LinPowOpts} (h : o.terms ≠ []) :
    o.setup = .ok ⟨prodShape o.shape, ivars o.terms,
      (o.terms.length, (ivars o.terms).length, termPowers o.terms (ivars o.terms)), o.terms.map fun t => .num t.1,
      o.constant⟩ := by
  unfold LinPowOpts.setup
  rw [if_neg h]
  simp only [Names.iter]
  rw [if_pos (ivars_spec o.terms).1]

section
variable {o : LinPowOpts} {c : LinPow}

theorem setup_fields (h : o.terms ≠ []) (hs : o.setup = .ok c) : c = ⟨prodShape o.shape, ivars o.terms,
      (o.terms.length, (ivars o.terms).length, termPowers o.terms (ivars o.terms)), o.terms.map fun t => .num t.1,
      o.constant⟩ := by
  rw [linPow_setup h] at hs
  exact (Except.ok.inj hs).symm

theorem setup_indexable (h : o.terms ≠ []) (hs : o.setup = .ok c) : c.indexable := by
  rw [setup_fields h hs]
  exact ⟨by simp, .inr le_rfl⟩

theorem setup_coeff (h : o.terms ≠ []) (hs : o.setup = .ok c) {k : Nat} (hk : k < o.terms.length) (i : Nat) :
    (c.coeffs.getD k (.num 0)).at i = some o.terms[k].1 := by
  rw [setup_fields h hs]
  simp [List.getD_eq_getElem?_getD, hk, Coef.at]

theorem term_value (h : o.terms ≠ []) (hd : ∀ t ∈ o.terms, (t.2.map Prod.fst).Nodup) (hs : o.setup = .ok c)
    {inp : String → Nat → ℝ} {i k : Nat} (hk : k < o.terms.length)
    (hv : ∀ p ∈ o.terms[k].2, PowVal (inp p.1 i) p.2) :
    c.term inp k i = some (o.terms[k].1 * (o.terms[k].2.map fun p => inp p.1 i ^ p.2).prod) := by
  unfold LinPow.term
  rw [setup_coeff h hs hk, setup_fields h hs]
  have hdk := hd _ (List.getElem_mem hk)
  rw [fold_fMul _ _ (fun p => inp p.1 i ^ powerIn o.terms[k].2 p.1)]
  · rw [zipIdx_map_fst _ fun n => inp n i ^ powerIn o.terms[k].2 n,
      prod_names hdk (ivars_spec o.terms).1 (fun p hp => ((ivars_spec o.terms).2 p.1).2
        ⟨_, List.getElem_mem hk, p, hp, rfl⟩) fun n => inp n i]
  · intro p hp
    simp only
    rw [termPowers_eq hk hp]
    apply npPow_val
    by_cases hm : ∃ q ∈ o.terms[k].2, q.1 = p.1
    · obtain ⟨q, hq, he⟩ := hm
      rw [← he, powerIn_mem hdk hq]
      exact hv q hq
    · push Not at hm
      rw [powerIn_absent hm]
      exact powVal_zero _

theorem sum_range_terms (l : List (ℝ × List (String × ℝ))) (f : ℝ × List (String × ℝ) → ℝ) (g : Nat → ℝ)
    (hg : ∀ k (hk : k < l.length), g k = f l[k]) : ((List.range l.length).map g).sum = (l.map f).sum := by
  congr 1
  apply List.ext_getElem
  · simp
  · intro k h1 h2
    simp only [List.getElem_map, List.getElem_range]
    exact hg k (by simpa using h1)

/-- **C71.** A component made from a list of terms adds one input for each variable of the terms, and computes the constant
plus the sum of the terms; a variable that a term does not have counts as the power zero. -/
theorem c71_values (h : o.terms ≠ []) (hd : ∀ t ∈ o.terms, (t.2.map Prod.fst).Nodup) :
    ∃ c, o.setup = .ok c ∧ (∀ n, n ∈ c.ins.map Prod.fst ↔ ∃ t ∈ o.terms, ∃ p ∈ t.2, p.1 = n) ∧
      (∀ p ∈ c.ins, p.2 = prodShape o.shape) ∧ (c.ins.map Prod.fst).Nodup ∧
      ∀ inp, ∃ r, c.compute inp = .ok r ∧ ∀ i, (∀ t ∈ o.terms, ∀ p ∈ t.2, PowVal (inp p.1 i) p.2) →
        r i = some (linPowValue o inp i) := by
  obtain ⟨h1, h2⟩ := ivars_spec o.terms
  refine ⟨_, linPow_setup h, ?_, ?_, ?_, fun inp => ?_⟩
  · intro n
    rw [← h2]
    simp [LinPow.ins]
  · simp [LinPow.ins]
  · have : (ivars o.terms).map (Prod.fst ∘ fun n => (n, prodShape o.shape)) = ivars o.terms := by
      simp [Function.comp_def]
    simpa [LinPow.ins, this] using h1
  · unfold LinPow.compute
    rw [if_pos (setup_indexable h (linPow_setup h))]
    refine ⟨_, rfl, fun i hv => ?_⟩
    simp only
    rw [fold_fAdd _ _ fun k => if hk : k < o.terms.length then
      o.terms[k].1 * (o.terms[k].2.map fun p => inp p.1 i ^ p.2).prod else 0]
    · unfold linPowValue
      rw [sum_range_terms o.terms (fun t => t.1 * (t.2.map fun p => inp p.1 i ^ p.2).prod)]
      intro k hk
      rw [dif_pos hk]
    · intro k hk
      have hk := List.mem_range.1 hk
      rw [dif_pos hk]
      exact term_value h hd (linPow_setup h) hk fun p hp => hv _ (List.getElem_mem hk) p hp

/-! ## Partials -/

/-- One term as a component of its own. -/
noncomputable def rowPow (c : LinPow) (k : Nat) (a : ℝ) : Pow :=
  ⟨c.size, c.names.zipIdx.map fun p => (p.1, .num (c.powers.2.2 k p.2)), .num a⟩

theorem rowPow_ins (c : LinPow) (k : Nat) (a : ℝ) : (rowPow c k a).ins = c.ins := by
  unfold Pow.ins rowPow LinPow.ins
  rw [List.map_map]
  exact zipIdx_map_fst c.names fun n => (n, c.size)

theorem rowPow_fst (c : LinPow) (k : Nat) (a : ℝ) : (rowPow c k a).terms.map Prod.fst = c.names := by
  unfold rowPow
  rw [List.map_map]
  exact (zipIdx_map_fst c.names id).trans (List.map_id _)

/-- The points at which the derivative by each variable is a number. -/
def LinPowOk (o : LinPowOpts) (inp : String → Nat → ℝ) (i : Nat) : Prop :=
  ∀ t ∈ o.terms, ∀ t' ∈ o.terms, ∀ p ∈ t'.2, PowOk (inp p.1 i) (powerIn t.2 p.1)

theorem dterm_value (h : o.terms ≠ []) (hs : o.setup = .ok c) {inp : String → Nat → ℝ} {i k : Nat}
    (hk : k < o.terms.length) (hok : LinPowOk o inp i) (name : String) :
    c.dterm inp name k i = some ((rowPow c k o.terms[k].1).deriv inp name i) := by
  unfold LinPow.dterm
  rw [setup_coeff h hs hk, pow_deriv, fold_fMul _ _ (fun p => (if name = p.1 then c.powers.2.2 k p.2 else 1) *
    inp p.1 i ^ (if name = p.1 then c.powers.2.2 k p.2 - 1 else c.powers.2.2 k p.2))]
  · simp only [rowPow, Const.at, List.map_map, Function.comp_def, Power.at]
  · intro p hp
    have hp1 : p.1 ∈ ivars o.terms := by
      rw [setup_fields h hs] at hp
      have := List.mem_map_of_mem (f := Prod.fst) hp
      simpa using this
    obtain ⟨t', ht', q, hq, he⟩ := ((ivars_spec o.terms).2 p.1).1 hp1
    have hpo : PowOk (inp p.1 i) (c.powers.2.2 k p.2) := by
      have := hok _ (List.getElem_mem hk) t' ht' q hq
      rw [he] at this
      rw [setup_fields h hs] at hp ⊢
      simp only
      rwa [termPowers_eq hk hp]
    split
    · rw [npPow_val hpo.val_pred, fMul_some]
    · rw [npPow_val hpo.val, fMul_some]

/-- The values set by the loop over the variables, if no coefficient is an array. -/
theorem partialsLoop_num (inp : String → Nat → ℝ) {c : LinPow} (hc : ∀ a ∈ c.coeffs, ∃ k, a = .num k)
    (names : List String) : LinPow.partialsLoop inp names c = (c, names.map fun n => (n, c.deriv inp n)) := by
  have hm : ∀ n, c.mutate inp n = c := by
    intro n
    unfold LinPow.mutate
    congr 1
    have : ∀ (l : List Coef) (j : Nat), (∀ a ∈ l, ∃ k, a = .num k) → ((l.zipIdx j).map fun p =>
        match p.1 with
        | .num k => Coef.num k
        | .arr a => if p.2 < c.powers.1 then .arr (c.dterm inp n p.2) else .arr a) = l := by
      intro l
      induction l with
      | nil => intros; rfl
      | cons a l ih =>
        intro j ha
        obtain ⟨k, rfl⟩ := ha a (by simp)
        rw [List.zipIdx_cons, List.map_cons, ih _ fun b hb => ha b (by simp [hb])]
    exact this c.coeffs 0 hc
  induction names with
  | nil => rfl
  | cons n ns ih => simp only [LinPow.partialsLoop, hm, ih, List.map_cons]

theorem setup_num (h : o.terms ≠ []) (hs : o.setup = .ok c) : ∀ a ∈ c.coeffs, ∃ k, a = .num k := by
  rw [setup_fields h hs]
  intro a ha
  obtain ⟨t, -, rfl⟩ := List.mem_map.1 ha
  exact ⟨_, rfl⟩

/-- `compute` as a function of real numbers, arbitrary where the result is not one. -/
noncomputable def LinPow.total (c : LinPow) (inp : String → Nat → ℝ) (i : Nat) : ℝ :=
  match c.compute inp with
  | .ok r => (r i).getD 0
  | .error _ => 0

/-- The diagonal matrices that `compute_partials` hands to OpenMDAO. -/
noncomputable def diagOf (size : Nat) (ps : List (String × (Nat → Option ℝ))) (name : String) : Coo :=
  ⟨List.range size, List.range size, (List.range size).map fun i =>
    (((ps.find? fun p => p.1 == name).map fun p => (p.2 i).getD 0).getD 0)⟩

theorem sum_range_fin (m : Nat) (f : Nat → ℝ) : ((List.range m).map f).sum = ∑ k : Fin m, f k := by
  rw [Fin.sum_univ_eq_sum_range f m]
  rfl

theorem sum_fin_list {m : Nat} {α : Type} (l : List α) (f : Fin m → α → ℝ) :
    ∑ k, (l.map (f k)).sum = (l.map fun a => ∑ k, f k a).sum := by
  induction l with
  | nil => simp
  | cons a l ih => simp [Finset.sum_add_distrib, ih]

theorem exists_of_ins {c' : Pow} {Q : ∀ ins : List (String × Nat), ((Slot ins → ℝ) →L[ℝ] ℝ) → Prop}
    (h : ∃ L, Q c'.ins L) : ∀ ins, c'.ins = ins → ∃ L, Q ins L := by
  rintro _ rfl
  exact h

theorem row_fderiv (hn : c.names.Nodup) {inp : String → Nat → ℝ} {i k : Nat} (a : ℝ) (hi : i < c.size)
    (hok : ∀ p ∈ c.names.zipIdx, inp p.1 i ≠ 0 ∨ 1 ≤ c.powers.2.2 k p.2) :
    ∃ L : (Slot c.ins → ℝ) →L[ℝ] ℝ,
      HasFDerivAt (fun y => (rowPow c k a).value (inputsOf c.ins y) i) L (slots c.ins inp) ∧
      ∀ v, L v = (c.names.map fun n => (rowPow c k a).deriv inp n i * inputsOf c.ins v n i).sum := by
  have h1 := hasFDerivAt_value (c := rowPow c k a) (by rw [rowPow_fst]; exact hn) (inp := inp) hi (by
    intro t ht
    obtain ⟨p, hp, rfl⟩ := List.mem_map.1 ht
    exact hok p hp)
  obtain ⟨L, h2, h3⟩ := exists_of_ins (Q := fun ins L =>
    HasFDerivAt (fun y => (rowPow c k a).value (inputsOf ins y) i) L (slots ins inp) ∧
      ∀ v, L v = ((rowPow c k a).terms.map fun t => (rowPow c k a).deriv inp t.1 i * inputsOf ins v t.1 i).sum)
    h1 _ (rowPow_ins c k a)
  refine ⟨L, h2, fun v => (h3 v).trans ?_⟩
  rw [← rowPow_fst c k a, List.map_map]
  rfl

/-- **C71** (partial): where no variable is zero unless its power in every term is an integer of at least one, the
derivatives are numbers and exact, and evaluating them does not change the component. Missing: a variable that is zero
and that some term does not have, see `c71_zero_violated`; arrays as coefficients, see `c71_array_coefficients`. -/
theorem c71_partials_partial (h : o.terms ≠ []) (hs : o.setup = .ok c)
    {inp : String → Nat → ℝ} (hok : ∀ i < c.size, LinPowOk o inp i) :
    ∃ ps, c.computePartials inp = .ok (c, ps) ∧ ps.map Prod.fst = c.ins.map Prod.fst ∧
      (∀ p ∈ ps, ∀ i < c.size, (p.2 i).isSome) ∧
      ExactPartials c.ins c.size c.total (diagOf c.size ps) inp := by
  have hc := setup_fields h hs
  have hnames : c.names = ivars o.terms := by rw [hc]
  have hm : c.powers.1 = o.terms.length := by rw [hc]
  have hn : c.names.Nodup := by rw [hnames]; exact (ivars_spec o.terms).1
  have hins : (c.ins.map Prod.fst) = c.names := by simp [LinPow.ins, Function.comp_def]
  have hder : ∀ i < c.size, ∀ n, c.deriv inp n i = some ((List.range o.terms.length).map fun k =>
      (rowPow c k (o.terms.getD k (0, [])).1).deriv inp n i).sum := by
    intro i hi n
    unfold LinPow.deriv
    rw [hm, fold_fAdd _ _ fun k => (rowPow c k (o.terms.getD k (0, [])).1).deriv inp n i, zero_add]
    intro k hk
    have hk := List.mem_range.1 hk
    rw [dterm_value h hs hk (hok i hi)]
    simp [List.getD_eq_getElem?_getD, hk]
  refine ⟨c.names.map fun n => (n, c.deriv inp n), ?_, ?_, ?_, ?_⟩
  · unfold LinPow.computePartials
    rw [if_pos (setup_indexable h hs), partialsLoop_num inp (setup_num h hs)]
  · rw [hins, List.map_map]
    exact List.map_id _
  · intro p hp i hi
    obtain ⟨n, -, rfl⟩ := List.mem_map.1 hp
    show (c.deriv inp n i).isSome
    rw [hder i hi]
    rfl
  · have hpow : ∀ i < c.size, ∀ k (hk : k < o.terms.length), ∀ p ∈ c.names.zipIdx,
        PowOk (inp p.1 i) (c.powers.2.2 k p.2) := by
      intro i hi k hk p hp
      have hp1 : p.1 ∈ ivars o.terms := by
        rw [hnames] at hp
        have := List.mem_map_of_mem (f := Prod.fst) hp
        simpa using this
      obtain ⟨t', ht', q, hq, he⟩ := ((ivars_spec o.terms).2 p.1).1 hp1
      have := hok i hi _ (List.getElem_mem hk) t' ht' q hq
      rw [he] at this
      rw [hc] at hp ⊢
      simp only
      rwa [termPowers_eq hk hp]
    have hrow : ∀ (i : Fin c.size) (k : Fin o.terms.length), ∃ L : (Slot c.ins → ℝ) →L[ℝ] ℝ,
        HasFDerivAt (fun y => (rowPow c k o.terms[k].1).value (inputsOf c.ins y) i) L (slots c.ins inp) ∧
        ∀ v, L v = (c.names.map fun n => (rowPow c k o.terms[k].1).deriv inp n i * inputsOf c.ins v n i).sum :=
      fun i k => row_fderiv hn _ i.2 fun p hp => (hpow i i.2 k k.2 p hp).smooth
    choose L hL1 hL2 using hrow
    have hev : ∀ i : Fin c.size, ∀ᶠ y in nhds (slots c.ins inp), ∀ k ∈ List.finRange o.terms.length,
        ∀ p ∈ c.names.zipIdx, PowVal (inputsOf c.ins y p.1 i) (c.powers.2.2 k p.2) := by
      intro i
      refine eventually_list fun k _ => eventually_list fun p hp => ?_
      have hmem : (p.1, c.size) ∈ c.ins := by
        refine List.mem_map.2 ⟨p.1, ?_, rfl⟩
        have := List.mem_map_of_mem (f := Prod.fst) hp
        simpa using this
      have h1 := (hpow i i.2 k k.2 p hp).near
      rw [← inputsOf_slots (by rw [hins]; exact hn) inp hmem i.2] at h1
      exact (hasFDerivAt_input c.ins p.1 i (slots c.ins inp)).continuousAt.eventually h1
    refine exactPartials_of (by rw [hins]; exact hn) ?_ ?_ (fun i => ∑ k, L i k) ?_ ?_
    · intro p hp q hq
      obtain ⟨n, -, rfl⟩ := List.mem_map.1 hp
      simpa [diagOf] using hq
    · intro p hp q hq
      simpa [diagOf] using hq
    · intro i
      have hsum := (HasFDerivAt.fun_sum (u := Finset.univ) fun k _ => hL1 i k).const_add (c.constant.at i)
      refine hsum.congr_of_eventuallyEq ?_
      filter_upwards [hev i] with y hy
      unfold LinPow.total LinPow.compute
      rw [if_pos (setup_indexable h hs)]
      simp only
      rw [hm, fold_fAdd _ _ fun k => (rowPow c k (o.terms.getD k (0, [])).1).value (inputsOf c.ins y) i]
      · simp only [Option.getD_some]
        congr 1
        rw [sum_range_fin]
        apply Finset.sum_congr rfl
        intro k _
        simp [List.getD_eq_getElem?_getD]
      · intro k hk
        have hk := List.mem_range.1 hk
        unfold LinPow.term Pow.value
        rw [setup_coeff h hs hk, fold_fMul _ _ fun p => inputsOf c.ins y p.1 i ^ c.powers.2.2 k p.2]
        · simp [rowPow, Const.at, List.map_map, Function.comp_def, Power.at, List.getD_eq_getElem?_getD, hk]
        · intro p hp
          exact npPow_val (hy ⟨k, hk⟩ (List.mem_finRange _) p hp)
    · intro i v
      rw [sum_apply]
      simp only [hL2]
      rw [sum_fin_list]
      generalize inputsOf c.ins v = w
      rw [LinPow.ins, List.map_map]
      congr 1
      apply List.map_congr_left
      intro n hn'
      have hf : (c.names.map fun n => (n, c.deriv inp n)).find? (fun p => p.1 == n) = some (n, c.deriv inp n) :=
        find_name (l := c.names.map fun n => (n, c.deriv inp n)) (t := (n, c.deriv inp n))
          (by rw [List.map_map]; simpa [Function.comp_def] using hn) (List.mem_map.2 ⟨n, hn', rfl⟩)
      simp only [Function.comp_apply, diagOf, hf, Coo.apply, Option.map_some, Option.getD_some]
      rw [cooApply_diag (by simp) _ i.2, ← Finset.sum_mul]
      congr 1
      simp only [List.getD_eq_getElem?_getD, List.getElem?_map, List.getElem?_range i.2, Option.map_some,
        Option.getD_some]
      rw [hder i i.2, sum_range_fin, Option.getD_some]
      apply Finset.sum_congr rfl
      intro k _
      simp

/-- The code violates C71: where a variable is zero and some term does not have it, the derivative by it is not a
number, for any other terms and coefficients. -/
theorem c71_zero_violated (h : o.terms ≠ []) (hs : o.setup = .ok c) {t t' : ℝ × List (String × ℝ)} (ht : t ∈ o.terms)
    (ht' : t' ∈ o.terms) {p : String × ℝ} (hp : p ∈ t'.2) (ha : ∀ q ∈ t.2, q.1 ≠ p.1) {inp : String → Nat → ℝ} {i : Nat}
    (h0 : inp p.1 i = 0) :
    ∃ ps d, c.computePartials inp = .ok (c, ps) ∧ (p.1, d) ∈ ps ∧ d i = none := by
  have hc := setup_fields h hs
  have hmem : p.1 ∈ c.names := by
    rw [hc]
    exact ((ivars_spec o.terms).2 _).2 ⟨t', ht', p, hp, rfl⟩
  refine ⟨c.names.map fun n => (n, c.deriv inp n), c.deriv inp p.1, ?_, List.mem_map.2 ⟨p.1, hmem, rfl⟩, ?_⟩
  · unfold LinPow.computePartials
    rw [if_pos (setup_indexable h hs), partialsLoop_num inp (setup_num h hs)]
  · obtain ⟨k, hk, hkt⟩ := List.getElem_of_mem ht
    unfold LinPow.deriv
    refine fold_none fAdd fAdd_none (fun _ => rfl) _ _ _ (.inr ⟨k, List.mem_range.2 (by rw [hc]; exact hk), ?_⟩)
    unfold LinPow.dterm
    obtain ⟨v, hv, hvp⟩ := List.getElem_of_mem hmem
    have hz : (p.1, v) ∈ c.names.zipIdx := by
      rw [List.mem_zipIdx_iff_getElem?]
      simp [hv, hvp]
    refine fold_none fMul fMul_none (fun _ => rfl) _ _ _ (.inr ⟨_, hz, ?_⟩)
    simp only [if_pos]
    have hpow : c.powers.2.2 k v = 0 := by
      rw [hc] at hz ⊢
      simp only
      rw [termPowers_eq (p := (p.1, v)) hk hz]
      exact powerIn_absent (by rw [hkt]; exact ha)
    rw [hpow, h0]
    have : npPow 0 (0 - 1) = none := by
      unfold npPow
      rw [if_neg (lt_irrefl _), if_pos rfl, if_pos (by norm_num)]
    rw [this, fMul_none]

/-- `x + y` as a list of terms. -/
noncomputable def sumXY : LinPowOpts := ⟨[1], [(1, [("x", 1)]), (1, [("y", 1)])], .none, (0, 0, fun _ _ => 0), [], .num 0⟩

/-- The component for `x + y` computes `x + y` everywhere, … -/
example (inp : String → Nat → ℝ) : ∃ c r, sumXY.setup = .ok c ∧ c.compute inp = .ok r ∧
    r 0 = some (inp "x" 0 + inp "y" 0) := by
  obtain ⟨c, h1, -, -, -, h2⟩ := c71_values (o := sumXY) (by simp [sumXY]) (by simp [sumXY])
  obtain ⟨r, h3, h4⟩ := h2 inp
  refine ⟨c, r, h1, h3, (h4 0 ?_).trans ?_⟩
  · have : ∀ x : ℝ, PowVal x 1 := fun x => PowOk.val (.inr ⟨⟨1, by simp⟩, .inr le_rfl⟩)
    simp [sumXY, this]
  · simp [linPowValue, sumXY, Const.at]

/-- … has exact derivatives where `x` and `y` are not zero, … -/
example (inp : String → Nat → ℝ) (hx : inp "x" 0 ≠ 0) (hy : inp "y" 0 ≠ 0) : ∃ c ps, sumXY.setup = .ok c ∧
    c.computePartials inp = .ok (c, ps) ∧ ExactPartials c.ins c.size c.total (diagOf c.size ps) inp := by
  have hs := linPow_setup (o := sumXY) (by simp [sumXY])
  obtain ⟨ps, h1, -, -, h2⟩ := c71_partials_partial (o := sumXY) (by simp [sumXY]) hs (inp := inp) (by
    intro i hi
    have hi : i < prodShape sumXY.shape := hi
    obtain rfl : i = 0 := by simpa [prodShape, sumXY] using hi
    have h0 : ∀ x : ℝ, x ≠ 0 → PowOk x 0 := fun x hx => .inr ⟨⟨0, by simp⟩, .inl hx⟩
    have h1 : ∀ x : ℝ, PowOk x 1 := fun x => .inr ⟨⟨1, by simp⟩, .inr le_rfl⟩
    intro t ht t' ht' p hp
    simp only [sumXY, List.mem_cons, List.not_mem_nil, or_false] at ht ht'
    rcases ht with rfl | rfl <;> rcases ht' with rfl | rfl <;>
      simp only [List.mem_cons, List.not_mem_nil, or_false] at hp <;> subst hp <;> simp [powerIn, h0, h1, hx, hy])
  exact ⟨_, ps, hs, h1, h2⟩

/-- … and its derivative by `x` is not a number where `x` is zero. -/
example (inp : String → Nat → ℝ) (hx : inp "x" 0 = 0) : ∃ c ps d, sumXY.setup = .ok c ∧
    c.computePartials inp = .ok (c, ps) ∧ ("x", d) ∈ ps ∧ d 0 = none := by
  have hs := linPow_setup (o := sumXY) (by simp [sumXY])
  obtain ⟨ps, d, h⟩ := c71_zero_violated (o := sumXY) (by simp [sumXY]) hs (t := (1, [("y", 1)])) (t' := (1, [("x", 1)]))
    (by simp [sumXY]) (by simp [sumXY]) (p := ("x", 1)) (by simp) (by simp) hx
  exact ⟨_, ps, d, hs, h⟩

/-- The code violates C71 for arrays as coefficients: after evaluating the derivatives of `a * x ** 2` at some inputs, the
component computes `(2 * a * x) * x' ** 2` at inputs `x'`. -/
theorem c71_array_coefficients (s : List Nat) (a : Nat → ℝ) (n : String) (inp inp' : String → Nat → ℝ) :
    ∃ c c' ps r r', (⟨s, [], .list [n], (1, 1, fun _ _ => 2), [.arr fun i => some (a i)], .num 0⟩ : LinPowOpts).setup = .ok c ∧
      c.compute inp' = .ok r ∧ (∀ i, r i = some (a i * inp' n i ^ 2)) ∧
      c.computePartials inp = .ok (c', ps) ∧ c'.compute inp' = .ok r' ∧
      ∀ i, r' i = some (2 * a i * inp n i * inp' n i ^ 2) := by
  have hp2 : ∀ x : ℝ, npPow x 2 = some (x ^ 2) := fun x => by
    have : PowOk x 2 := .inr ⟨⟨2, by simp⟩, .inr (by norm_num)⟩
    rw [npPow_val this.val]
    norm_num
  have hp1 : ∀ x : ℝ, npPow x (2 - 1) = some x := fun x => by
    have : PowOk x 2 := .inr ⟨⟨2, by simp⟩, .inr (by norm_num)⟩
    rw [npPow_val this.val_pred]
    norm_num
  have hcomp : ∀ a : Nat → Option ℝ, (⟨prodShape s, [n], (1, 1, fun _ _ => 2), [.arr a], .num 0⟩ : LinPow).compute inp' =
      .ok fun i => fAdd (some 0) (fMul (a i) (some (inp' n i ^ 2))) := by
    intro a
    unfold LinPow.compute
    rw [if_pos ⟨le_rfl, .inr le_rfl⟩]
    congr 1
    funext i
    simp [LinPow.term, Coef.at, Const.at, hp2]
  refine ⟨⟨prodShape s, [n], (1, 1, fun _ _ => 2), [.arr fun i => some (a i)], .num 0⟩,
    ⟨prodShape s, [n], (1, 1, fun _ _ => 2), [.arr fun i => some (a i * (2 * inp n i))], .num 0⟩,
    [(n, fun i => some (a i * (2 * inp n i)))], _, _, ?_, hcomp _, ?_, ?_, hcomp _, ?_⟩
  · simp [LinPowOpts.setup, Names.iter]
  · intro i
    simp [fMul, fAdd]
  · unfold LinPow.computePartials
    rw [if_pos ⟨le_rfl, .inr le_rfl⟩]
    have hdt : ∀ i, (⟨prodShape s, [n], (1, 1, fun _ _ => 2), [.arr fun i => some (a i)], .num 0⟩ : LinPow).dterm inp n 0 i =
        some (a i * (2 * inp n i)) := by
      intro i
      simp only [LinPow.dterm, List.zipIdx_cons, List.zipIdx_nil, List.foldl_cons, List.foldl_nil, if_pos, hp1]
      simp [Coef.at, fMul]
    have hde : ∀ i, (⟨prodShape s, [n], (1, 1, fun _ _ => 2), [.arr fun i => some (a i)], .num 0⟩ : LinPow).deriv inp n i =
        some (a i * (2 * inp n i)) := by
      intro i
      simp [LinPow.deriv, hdt, fAdd]
    simp [LinPow.partialsLoop, LinPow.mutate, funext hdt, funext hde]
  · intro i
    simp only [fMul, fAdd, Option.bind_some, Option.map_some, Option.some.injEq]
    ring

/-- The code violates C71 for one name given as a string: its characters are the inputs, whatever the other options;
a name with a character that occurs twice is refused. -/
theorem c71_string_names (o : LinPowOpts) (ht : o.terms = []) {s : String} (hs : o.inNames = .str s) :
    (s.toList.Nodup → ∃ c, o.setup = .ok c ∧ c.ins.map Prod.fst = s.toList.map Char.toString) ∧
    (¬ s.toList.Nodup → o.setup = .error .valueError) := by
  have hinj : Function.Injective Char.toString := by
    intro a b h
    have := congrArg String.toList h
    simpa [Char.toString] using this
  have hset : o.setup = if (s.toList.map Char.toString).Nodup then
      .ok ⟨prodShape o.shape, s.toList.map Char.toString, o.powers, o.coeffs, o.constant⟩ else .error .valueError := by
    unfold LinPowOpts.setup
    rw [if_pos ht]
    simp only [hs, Names.iter]
  rw [hset]
  refine ⟨fun h => ?_, fun h => by rw [if_neg (by rwa [List.nodup_map_iff hinj])]⟩
  rw [if_pos ((List.nodup_map_iff hinj).2 h)]
  exact ⟨_, rfl, by simp [LinPow.ins]⟩

example : ¬ "mass".toList.Nodup ∧ "xy".toList.Nodup ∧ "xy".toList.map Char.toString = ["x", "y"] := by decide

end
end OM
